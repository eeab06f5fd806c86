import Verif.Model.Precision
import Verif.Props.SortAxis

/-!
# C138: models in single precision
-/

set_option autoImplicit false

namespace Verif.Props

open Verif.SortAxis Verif.Precision

variable {V W : Type}

theorem memory_length (f : FloatMem V) (vs : List V) : (memory f vs).length = vs.length * f.size := by
  unfold memory
  induction vs with
  | nil => simp
  | cons v t ih =>
    rw [List.flatMap_cons, List.length_append, ih, f.length_bytes, List.length_cons]
    ring

theorem memory_slice (f : FloatMem V) (vs : List V) (i : ℕ) (hi : i < vs.length) :
    ((memory f vs).drop (i * f.size)).take f.size = f.bytes vs[i] := by
  induction vs generalizing i with
  | nil => simp at hi
  | cons v t ih =>
    cases i with
    | zero =>
      unfold memory
      rw [List.flatMap_cons, Nat.zero_mul, List.drop_zero, ← f.length_bytes v, List.take_left]
      rfl
    | succ i =>
      have := ih i (by simpa using hi)
      rw [List.getElem_cons_succ, ← this]
      unfold memory
      rw [List.flatMap_cons, Nat.succ_mul, Nat.add_comm, ← List.drop_drop]
      congr 2
      rw [List.drop_append, ← f.length_bytes v, List.drop_length, Nat.sub_self]
      simp

/-- **C138.** In double precision, reading through the pointer gives the number itself, for every slice and index. -/
theorem C138_double_read (r : FloatMem64 W) (addr : ℕ) (ha : addr % 8 = 0) (vs : List W) (i : ℕ) (hi : i < vs.length) :
    intoF64 r.toFloatMem r addr vs i = .ok vs[i] := by
  have h8 := r.size_eq
  unfold intoF64 read64
  rw [memory_length, h8, if_neg (by nlinarith), if_neg (by omega)]
  have := memory_slice r.toFloatMem vs i hi
  rw [h8] at this
  rw [this, r.ofBytes_bytes]

theorem mapF64_double (r : FloatMem64 W) (addr : ℕ) (ha : addr % 8 = 0) (vs : List W) :
    mapF64 r.toFloatMem r addr vs = .ok vs := by
  unfold mapF64
  obtain ⟨res, h1, h2, h3⟩ := mapM_total (f := intoF64 r.toFloatMem r addr vs) (l := List.range vs.length) fun i hi =>
    ⟨_, C138_double_read r addr ha vs i (List.mem_range.1 hi)⟩
  rw [h1]
  congr 1
  rw [List.length_range] at h2
  refine List.ext_getElem h2 fun i hi hi' => ?_
  have := h3 i (by simpa using hi') hi
  rw [List.getElem_range, C138_double_read r addr ha vs i hi', Except.ok.injEq] at this
  exact this.symm

/-- **C138.** In double precision, the optimizer of the hyperparameters gets exactly the starts and bounds. -/
theorem C138_double_optimizer_partial (r : FloatMem64 W) (a₁ a₂ : ℕ) (h₁ : a₁ % 8 = 0) (h₂ : a₂ % 8 = 0) (p : List W)
    (b : List (W × W)) :
    optimizerInput r.toFloatMem r a₁ a₂ (.tuned p b) = .ok (some (p, b.flatMap fun b => [b.1, b.2])) := by
  simp only [optimizerInput, boundsF64, mapF64_double r _ h₁, mapF64_double r _ h₂, bind, Except.bind]

/-- **C138.** In double precision, finite differences of sparse models start from the point itself. -/
theorem C138_double_gradient_partial (r : FloatMem64 W) (addr : ℕ) (ha : addr % 8 = 0) (x : List W) :
    diffPoint r.toFloatMem r addr x = .ok x := by
  unfold diffPoint
  have e : localF64 r.toFloatMem r addr = fun v => .ok v := by
    funext v
    exact C138_double_read r addr ha [v] 0 (by simp)
  rw [e]
  induction x with
  | nil => rfl
  | cons a t ih => rw [List.mapM_cons, ih]; rfl

/-- **C138.** In any precision, with fixed hyperparameters nothing is read this way. -/
theorem C138_fixed (f : FloatMem V) (r : FloatMem64 W) (a₁ a₂ : ℕ) : optimizerInput f r a₁ a₂ .fixed = .ok none := rfl

/-- The last number of a slice of a smaller type cannot be read. -/
theorem last_undefined (f : FloatMem V) (r : FloatMem64 W) (hf : f.size < 8) (addr : ℕ) (vs : List V) (hne : vs ≠ []) :
    intoF64 f r addr vs (vs.length - 1) = .error .undefined := by
  unfold intoF64 read64
  rw [if_pos]
  rw [memory_length]
  obtain ⟨v, t, rfl⟩ := List.exists_cons_of_ne_nil hne
  simp only [List.length_cons, Nat.add_sub_cancel, Nat.succ_mul]
  omega

theorem intoF64_only_undefined (f : FloatMem V) (r : FloatMem64 W) (addr : ℕ) (vs : List V) (i : ℕ) (e : Fault)
    (h : intoF64 f r addr vs i = .error e) : e = .undefined := by
  unfold intoF64 read64 at h
  split_ifs at h <;> simpa using h.symm

theorem mapF64_single (f : FloatMem V) (r : FloatMem64 W) (hf : f.size < 8) (addr : ℕ) (vs : List V) (hne : vs ≠ []) :
    mapF64 f r addr vs = .error .undefined := by
  refine mapM_fault (fun i e h => intoF64_only_undefined f r addr vs i e h) _ ⟨vs.length - 1, ?_, _,
    last_undefined f r hf addr vs hne⟩
  rw [List.mem_range]
  have := List.length_pos_iff.2 hne
  omega

/-- **C138 refuted.** In single precision (a type of less than eight bytes), training with tuned hyperparameters reads
outside of the starts given to the optimizer: the behaviour is undefined, whatever the data, the start and the bounds. -/
theorem C138_refuted_tuned (f : FloatMem V) (r : FloatMem64 W) (hf : f.size < 8) (a₁ a₂ : ℕ) (p : List V) (hp : p ≠ [])
    (b : List (V × V)) : optimizerInput f r a₁ a₂ (.tuned p b) = .error .undefined := by
  simp only [optimizerInput, mapF64_single f r hf a₁ p hp, bind, Except.bind]

/-- **C138 refuted.** So is the likelihood returned to the optimizer. -/
theorem C138_refuted_local (f : FloatMem V) (r : FloatMem64 W) (hf : f.size < 8) (addr : ℕ) (v : V) :
    localF64 f r addr v = .error .undefined :=
  last_undefined f r hf addr [v] (by simp)

/-- **C138 refuted.** So are the gradients of sparse models. -/
theorem C138_refuted_gradient (f : FloatMem V) (r : FloatMem64 W) (hf : f.size < 8) (addr : ℕ) (x : List V) (hx : x ≠ []) :
    diffPoint f r addr x = .error .undefined := by
  obtain ⟨v, t, rfl⟩ := List.exists_cons_of_ne_nil hx
  unfold diffPoint
  rw [List.mapM_cons, C138_refuted_local f r hf addr v]
  rfl

/-- **C138 refuted.** What is read of the numbers before the last one of a slice of four byte numbers (where it is aligned)
is made of the bytes of two numbers. -/
theorem C138_refuted_inner (f : FloatMem V) (r : FloatMem64 W) (hf : f.size = 4) (addr : ℕ) (vs : List V) (i : ℕ)
    (hi : i + 1 < vs.length) (ha : (addr + 4 * i) % 8 = 0) :
    intoF64 f r addr vs i = .ok (r.ofBytes (f.bytes vs[i] ++ f.bytes vs[i + 1])) := by
  unfold intoF64 read64
  rw [memory_length, hf, if_neg (by nlinarith), if_neg (by omega)]
  have h1 := memory_slice f vs i (by omega)
  have h2 := memory_slice f vs (i + 1) hi
  rw [hf] at h1 h2
  rw [← h1, ← h2, show (i + 1) * 4 = i * 4 + 4 by ring, ← List.drop_drop, ← List.take_add]

/-- **C138 refuted.** Where it is not aligned, that is for one number in two, the behaviour is undefined. -/
theorem C138_refuted_unaligned (f : FloatMem V) (r : FloatMem64 W) (hf : f.size = 4) (addr : ℕ) (vs : List V) (i : ℕ)
    (ha : (addr + 4 * i) % 8 ≠ 0) : intoF64 f r addr vs i = .error .undefined := by
  unfold intoF64 read64
  rw [hf]
  split_ifs with h1 h2
  · rfl
  · rfl
  · exact absurd (not_not.1 h2) (by rwa [Nat.mul_comm i 4])

/-- Case: eight byte numbers, and four byte numbers. -/
def exMem64 : FloatMem64 (Fin 8 → Byte) where
  size := 8
  bytes := List.ofFn
  length_bytes := by simp
  size_eq := rfl
  ofBytes l := fun i => l.getD i 0
  ofBytes_bytes := by
    intro v
    funext i
    rw [List.getD, List.getElem?_ofFn, dif_pos i.isLt]
    rfl

/-- Four byte numbers. -/
def exMem32 : FloatMem (Fin 4 → Byte) := ⟨4, List.ofFn, by simp⟩

example : optimizerInput exMem64.toFloatMem exMem64 64 128 (.tuned [fun i => Fin.ofNat 256 i] []) =
    .ok (some ([fun i => Fin.ofNat 256 i], [])) :=
  C138_double_optimizer_partial _ _ _ rfl rfl _ _

example : optimizerInput exMem32 exMem64 64 128 (.tuned [fun i => Fin.ofNat 256 i] []) = .error .undefined :=
  C138_refuted_tuned _ _ (by decide) _ _ _ (by simp) _

end Verif.Props
