import Verif.Model.UserDoe
import Verif.Props.MixInt
import Verif.Props.Result

/-!
# Properties of the initial design given by the user (C126)
-/

set_option autoImplicit false

namespace Verif.Props

open Verif Spec FindResult MixInt Run Result UserDoe

/-- No categorical variable. -/
def NoEnum (ts : List (XType ℚ)) : Prop := ∀ n, XType.enum n ∉ ts

/-- The rows of `m` are admissible points of the declared space, given with one column per variable. -/
def UserPoints (ts : List (XType ℚ)) (rows : List (List ℚ)) : Prop := ∀ x ∈ rows, ∃ u, Relaxed ts x u

theorem relaxedDim_noEnum {ts : List (XType ℚ)} (h : NoEnum ts) : relaxedDim ts = ts.length := by
  induction ts with
  | nil => rfl
  | cons t ts ih =>
    have ih := ih fun n hn => h n (List.mem_cons_of_mem _ hn)
    simp only [relaxedDim] at ih
    cases t with
    | enum n => exact absurd List.mem_cons_self (h n)
    | _ => simp only [relaxedDim, List.map_cons, List.sum_cons, ih, List.length_cons]; omega

theorem relaxed_self {ts : List (XType ℚ)} (h : NoEnum ts) {x u : List ℚ} (hr : Relaxed ts x u) : u = x := by
  induction hr with
  | nil => rfl
  | float _ _ _ ih => rw [ih fun n hn => h n (List.mem_cons_of_mem _ hn)]
  | int _ _ _ ih => rw [ih fun n hn => h n (List.mem_cons_of_mem _ hn)]
  | ord _ _ ih => rw [ih fun n hn => h n (List.mem_cons_of_mem _ hn)]
  | enum _ _ _ => exact absurd List.mem_cons_self (h _)

theorem userInput_self {cfg : Cfg} (h : NoEnum cfg.xtypes) {x : List ℚ} (hx : ∃ u, Relaxed cfg.xtypes x u) :
    userInput cfg x = .ok x := by
  obtain ⟨u, hu⟩ := hx
  have e := relaxed_self h hu
  subst e
  unfold userInput
  split_ifs
  · refine C09_decode_partial cfg.xtypes ?_ u u hu
    rw [List.pairwise_iff_forall_sublist]
    intro a b hab n m ha _
    exact absurd (hab.subset List.mem_cons_self) (ha ▸ h n)
  · rfl

theorem mapM_self {cfg : Cfg} (h : NoEnum cfg.xtypes) {xs us : List (List ℚ)} (hx : UserPoints cfg.xtypes xs)
    (hu : List.Forall₂ (fun x u => userInput cfg x = .ok u) xs us) : us = xs := by
  induction hu with
  | nil => rfl
  | cons hxu _ ih =>
    rw [userInput_self h (hx _ List.mem_cons_self), Except.ok.injEq] at hxu
    rw [← hxu, ih fun x hx' => hx x (List.mem_cons_of_mem _ hx')]

theorem result_starts {cfg : Cfg} {P : Prob} {d : Doe} {os : List Oracle} {s0 s : St} {r : Optim}
    (hne : NoEnum cfg.xtypes) (h0 : init cfg P d = .ok s0) (h : run cfg P d os = .ok s)
    (hp : UserPoints cfg.xtypes s0.data.x) (hr : optimResult cfg s = .ok r) :
    s0.data.x <+: r.xDoe ∧ s0.data.y.rows <+: r.yDoe.rows := by
  obtain ⟨s0', xs, h0', hext, _⟩ := run_ext h
  rw [h0, Except.ok.injEq] at h0'
  subst h0'
  obtain ⟨⟨p, hbp, _⟩, ⟨c, hbc, _⟩, _⟩ := run_best h
  obtain ⟨_, h2, _, h4⟩ := (optimResult_eq cfg s p c hbp hbc r).1 hr
  obtain ⟨ys, hy, _⟩ := hext.y
  refine ⟨?_, by rw [h4, hy]; exact List.prefix_append _ _⟩
  rw [mapM_ok, hext.x] at h2
  have hu := List.forall₂_take s0.data.x.length h2
  rw [List.take_left] at hu
  rw [← mapM_self hne hp hu]
  exact List.take_prefix _ _

/-- C126 (part). Without categorical variable, a design of `nx` columns is used as given: the objective is evaluated at
its rows, in order, before anything else; the data, and the result, start with these points and their values. -/
theorem C126_inputs_partial (cfg : Cfg) (P : Prob) (m : Mat ℚ) (nDoe : ℕ) (lhs : ℕ → List (List ℚ)) (os : List Oracle)
    (s : St) (r : Optim) (hok : ∀ t ∈ cfg.xtypes, TypeOk t) (hne : NoEnum cfg.xtypes)
    (hm : m.ncols = cfg.xtypes.length) (hp : UserPoints cfg.xtypes m.rows)
    (h : runWith cfg P none (some m) nDoe lhs os = .ok s) (hr : optimResult cfg s = .ok r) :
    s.doeSize = m.rows.length ∧ m.rows <+: s.calls ∧ m.rows <+: r.xDoe ∧ m.rows.map P.f <+: r.yDoe.rows := by
  obtain ⟨lim, hl, hlen, _⟩ := C10_limits cfg.xtypes hok
  rw [relaxedDim_noEnum hne] at hlen
  have hc : chooseDoe cfg.xtypes none (some m) nDoe lhs = .ok (.points m.rows) := by
    simp only [chooseDoe, hl, bind, Except.bind, Option.none_or, readDoe, hlen, hm, if_true]
  simp only [runWith, hc, bind, Except.bind] at h
  have h' := h
  simp only [run, bind_ok] at h'
  obtain ⟨s0, h0, hloop⟩ := h'
  obtain ⟨⟨e1, _, e2, e3, _⟩, _⟩ := init_spec h0
  rw [mapM_self hne hp e2] at e3
  have hcalls : s0.calls <+: s.calls := by
    refine loop_induction (fun t => s0.calls <+: t.calls) ?_ hloop (List.prefix_refl _)
    intro t t' o xs us _ hI _ _ hT
    rw [hT.calls]
    exact hI.trans (List.prefix_append _ _)
  obtain ⟨_, _, _, _, _, hds, _⟩ := run_ext h
  obtain ⟨g1, g2⟩ := result_starts hne h0 h (by rw [e1]; exact hp) hr
  rw [e1] at g1
  rw [e3] at g2
  rw [mapM_self hne hp e2] at hcalls
  exact ⟨hds, hcalls, g1, g2⟩

/-- C126 (part). Without categorical variable, a design with outputs is used as given: nothing is evaluated again, the
data and the result start with the given inputs and outputs. -/
theorem C126_inputs_and_outputs_partial (cfg : Cfg) (P : Prob) (m : Mat ℚ) (nDoe : ℕ) (lhs : ℕ → List (List ℚ))
    (hok : ∀ t ∈ cfg.xtypes, TypeOk t) (hne : NoEnum cfg.xtypes) (hm : cfg.xtypes.length < m.ncols)
    (hp : UserPoints cfg.xtypes (m.rows.map (·.take cfg.xtypes.length))) :
    (∀ s0, runWith cfg P none (some m) nDoe lhs [] = .ok s0 → s0.calls = []) ∧
    ∀ os s r, runWith cfg P none (some m) nDoe lhs os = .ok s → optimResult cfg s = .ok r →
      s.doeSize = m.rows.length ∧ m.rows.map (·.take cfg.xtypes.length) <+: r.xDoe ∧
      m.rows.map (fun x => (x.drop cfg.xtypes.length).map .fin) <+: r.yDoe.rows ∧
      r.yDoe.ncols = m.ncols - cfg.xtypes.length := by
  obtain ⟨lim, hl, hlen, _⟩ := C10_limits cfg.xtypes hok
  rw [relaxedDim_noEnum hne] at hlen
  have hc : chooseDoe cfg.xtypes none (some m) nDoe lhs = .ok (.full (m.rows.map (·.take cfg.xtypes.length))
      ⟨m.ncols - cfg.xtypes.length, m.rows.map fun x => (x.drop cfg.xtypes.length).map .fin⟩) := by
    simp only [chooseDoe, hl, bind, Except.bind, Option.none_or, readDoe, hlen]
    rw [if_neg (by omega), if_neg (by omega)]
  simp only [runWith, hc, bind, Except.bind]
  refine ⟨?_, ?_⟩
  · intro s0 h
    simp only [run, bind_ok] at h
    obtain ⟨s, h0, h⟩ := h
    simp only [loop, Except.ok.injEq] at h
    subst h
    exact (init_spec h0).1.2.2.1
  · intro os s r h hr
    obtain ⟨s0, xs, h0, hext, _, hds, _⟩ := run_ext h
    obtain ⟨⟨e1, e2, _⟩, _⟩ := init_spec h0
    obtain ⟨g1, g2⟩ := result_starts hne h0 h (by rw [e1]; exact hp) hr
    obtain ⟨⟨p, hbp, _⟩, ⟨c, hbc, _⟩, _⟩ := run_best h
    obtain ⟨_, _, _, h4⟩ := (optimResult_eq cfg s p c hbp hbc r).1 hr
    obtain ⟨ys, hy, _⟩ := hext.y
    rw [e1] at g1
    rw [e2] at g2
    refine ⟨by rw [hds]; simp [Doe.size], g1, g2, ?_⟩
    rw [h4, hy, e2]

/-- C126 (part). Without given design the objective is first evaluated at a sampling of `n_doe` points, or of
`max(5, d + 1)` points when `n_doe` is 0, `d` being the number of relaxed coordinates. A design read by a warm start
replaces a given one. -/
theorem C126_sampling_partial (ts : List (XType ℚ)) (hok : ∀ t ∈ ts, TypeOk t) (nDoe : ℕ) (lhs : ℕ → List (List ℚ))
    (hlhs : ∀ n, (lhs n).length = n) :
    (∃ x, chooseDoe ts none none nDoe lhs = .ok (.points x) ∧
      x.length = if nDoe = 0 then max 5 (relaxedDim ts + 1) else nDoe) ∧
    ∀ m given, chooseDoe ts (some m) given nDoe lhs = chooseDoe ts none (some m) nDoe lhs := by
  obtain ⟨lim, hl, hlen, _⟩ := C10_limits ts hok
  refine ⟨⟨lhs (doeSize lim.length nDoe), by simp only [chooseDoe, hl, bind, Except.bind, Option.none_or], ?_⟩,
    fun m given => rfl⟩
  rw [hlhs, doeSize, hlen, max_comm]

/-- C126 does not hold: with a categorical variable of two levels or more, giving the inputs of the design is an out
of bounds panic. -/
theorem C126_refuted_enum_inputs (cfg : Cfg) (P : Prob) (m : Mat ℚ) (nDoe : ℕ) (lhs : ℕ → List (List ℚ))
    (os : List Oracle) (hok : ∀ t ∈ cfg.xtypes, TypeOk t) (n : ℕ) (hn : 2 ≤ n) (he : XType.enum n ∈ cfg.xtypes)
    (hm : m.ncols = cfg.xtypes.length) :
    runWith cfg P none (some m) nDoe lhs os = .error .outOfBounds := by
  obtain ⟨lim, hl, hlen, _⟩ := C10_limits cfg.xtypes hok
  have hlt : cfg.xtypes.length < relaxedDim cfg.xtypes := by
    clear hl hlen hm
    have base : ∀ ts : List (XType ℚ), (∀ t ∈ ts, TypeOk t) → ts.length ≤ relaxedDim ts := by
      intro ts hok
      induction ts with
      | nil => simp
      | cons t ts ih =>
        have ih := ih fun t ht => hok t (List.mem_cons_of_mem _ ht)
        have h1 := hok t List.mem_cons_self
        simp only [relaxedDim] at ih
        cases t <;> simp only [relaxedDim, List.map_cons, List.sum_cons, List.length_cons] <;>
          simp only [TypeOk] at h1 <;> omega
    generalize cfg.xtypes = ts at hok he
    induction ts with
    | nil => simp at he
    | cons t ts ih =>
      have hok' : ∀ t ∈ ts, TypeOk t := fun t ht => hok t (List.mem_cons_of_mem _ ht)
      have h1 := hok t List.mem_cons_self
      have h2 := base ts hok'
      simp only [relaxedDim] at h2 ih
      rcases List.mem_cons.1 he with rfl | he
      · simp only [relaxedDim, List.map_cons, List.sum_cons, List.length_cons]; omega
      · have ih := ih hok' he
        cases t <;> simp only [relaxedDim, List.map_cons, List.sum_cons, List.length_cons] <;>
          simp only [TypeOk] at h1 <;> omega
  simp only [runWith, chooseDoe, hl, bind, Except.bind, Option.none_or, readDoe]
  rw [if_neg (by omega), if_pos (by omega)]

/-- A category among two, one output. -/
def enum2Cfg : Cfg := { exCfg with xtypes := [.enum 2], qPoints := 1, nOut := 1, tol := [] }

/-- C126 does not hold: with a categorical variable the outputs of a design can be taken for inputs. Here the values of
both categories are given; the second category is evaluated twice instead. -/
theorem C126_refuted_enum_outputs :
    ∃ (P : Prob) (m : Mat ℚ) (s : St) (r : Optim), m.ncols = 1 + 1 ∧
      m.rows.map (·.take 1) = [[0], [1]] ∧ m.rows.map (fun x => P.f (x.take 1)) = m.rows.map (fun x => (x.drop 1).map .fin) ∧
      runWith enum2Cfg P none (some m) 0 (fun _ => []) [] = .ok s ∧ s.calls = [[1], [1]] ∧
      optimResult enum2Cfg s = .ok r ∧ r.xDoe = [[1], [1]] := by
  let P : Prob := ⟨fun x => match x with | [a] => [.fin (5 - a * 2)] | _ => [], []⟩
  have h : ((runWith enum2Cfg P none (some ⟨2, [[0, 5], [1, 3]]⟩) 0 (fun _ => []) [] >>= fun s =>
      (optimResult enum2Cfg s).map fun r => (s.calls, r.xDoe))) = .ok ([[1], [1]], [[1], [1]]) := by decide +kernel
  rw [bind_ok] at h
  obtain ⟨s, h1, h⟩ := h
  obtain ⟨r, h2, h⟩ := ok_of_map h
  simp only [Prod.mk.injEq] at h
  exact ⟨P, ⟨2, [[0, 5], [1, 3]]⟩, s, r, rfl, by decide +kernel, by decide +kernel, h1, h.1, h2, h.2⟩

/-- C126 does not hold: with a categorical variable, inputs and outputs of a design can be shifted without error. Here
the objective 5, constraint 7 of category 0 is read as the input `[0, 5]` (category 1) and the objective 7. -/
theorem C126_refuted_enum_shift :
    ∃ (m : Mat ℚ) (d : Doe), m = ⟨3, [[0, 5, 7]]⟩ ∧ chooseDoe [.enum 2] none (some m) 0 (fun _ => []) = .ok d ∧
      d = .full [[0, 5]] ⟨1, [[.fin 7]]⟩ :=
  ⟨_, _, rfl, rfl, rfl⟩

/-- A case of C126: one integer and one value of a list; the design is used as given. -/
example : NoEnum [.int (-3) 3, .ord [4, 1, 9]] ∧ UserPoints [.int (-3) 3, .ord [4, 1, 9]] [[2, 9], [-3, 1]] := by
  refine ⟨by simp [NoEnum], ?_⟩
  intro x hx
  simp only [List.mem_cons, List.not_mem_nil, or_false] at hx
  rcases hx with rfl | rfl
  · exact ⟨_, Relaxed.int (z := 2) (by norm_num) (by norm_num) (.ord (by simp) .nil)⟩
  · exact ⟨_, Relaxed.int (z := -3) (by norm_num) (by norm_num) (.ord (by simp) .nil)⟩

end Verif.Props
