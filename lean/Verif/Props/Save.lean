import Verif.Model.Save
import Verif.Props.GpStrict

/-!
# C129: a saved model is loaded back
-/

set_option autoImplicit false

namespace Verif.Props

open Save

variable {ρ : Type} {parse : ℝ → ℝ} {d : Disk ρ} {name : List Char} {m : Stored ρ} {tag : Tag}

/-! ## Specification -/

namespace Spec

/-- All numbers are finite. -/
def AllFinite (m : Stored ρ) : Prop := ∀ v ∈ m.values, v ≠ none

/-- The object as read in a format: the same, but for the rounding of numbers read in a JSON file. -/
def asRead (parse : ℝ → ℝ) : Format → Stored ρ → Stored ρ
  | .json, m => ⟨m.values.map (Option.map parse), m.rest⟩
  | .binary, m => m

/-- A file name `stem.ext`. -/
def Named (name ext : List Char) : Prop := ∃ stem, stem ≠ [] ∧ name = stem ++ '.' :: ext ∧ '.' ∉ ext

end Spec

open Props.Spec

/-! ## Formats -/

theorem mapM_ofItem_binary (parse : ℝ → ℝ) (l : List (Option ℝ)) :
    (l.map (toItem .binary)).mapM (ofItem parse .binary) = some l := by
  induction l with
  | nil => rfl
  | cons a l ih => simp [toItem, ofItem, ih]

theorem mapM_ofItem_json (parse : ℝ → ℝ) (l : List (Option ℝ)) :
    (l.map (toItem .json)).mapM (ofItem parse .json) =
      if ∀ v ∈ l, v ≠ none then some (l.map (Option.map parse)) else none := by
  induction l with
  | nil => rfl
  | cons a l ih =>
    rw [List.map_cons, List.mapM_cons, ih]
    cases a with
    | none => simp [toItem, ofItem]
    | some v =>
      by_cases hl : ∀ v ∈ l, v ≠ none
      · rw [if_pos hl, if_pos (by simpa using hl)]
        rfl
      · rw [if_neg hl, if_neg (by simpa using hl)]
        rfl

theorem save_decode_encode (parse : ℝ → ℝ) (fmt : Format) (tag : Tag) (m : Stored ρ) (r : Stored ρ) :
    decode parse fmt tag (encode fmt tag m) = some r ↔
      (fmt = .json → AllFinite m) ∧ r = asRead parse fmt m := by
  cases fmt with
  | json =>
    simp only [decode, encode, mapM_ofItem_json, and_self, if_true, AllFinite, asRead, forall_const]
    split_ifs with h
    · simpa using ⟨fun e => ⟨h, e.symm⟩, fun e => e.2.symm⟩
    · simp [h]
  | binary =>
    simp only [decode, encode, mapM_ofItem_binary, and_self, if_true, asRead, Option.map_some, Option.some.injEq]
    simp only [reduceCtorEq, false_imp_iff, true_and]
    exact ⟨fun e => e.symm, fun e => e.symm⟩

/-- A model saved and loaded in the same format is read if and only if it is saved as a binary file or has only finite
numbers. It is then the model, but for the rounding of numbers read in JSON files; other files are kept. -/
theorem C129_same_format (d : Disk ρ) (name : List Char) (m : Stored ρ) (fmt : Format) (tag : Tag)
    (hc : d.creatable name = true) : ∃ d', save fmt tag d name m = .ok d' ∧
      (∀ r, load parse fmt tag d' name = some r ↔ (fmt = .json → AllFinite m) ∧ r = asRead parse fmt m) ∧
      ∀ other, other ≠ name → d'.file other = d.file other := by
  refine ⟨d.put name (encode fmt tag m), if_pos hc, fun r => ?_, fun other ho => if_neg ho⟩
  rw [← save_decode_encode parse fmt tag, load]
  simp [Disk.put]

/-- A file of the other format, or of an object of another trait, is never read. -/
theorem C129_other_format (d d' : Disk ρ) (name : List Char) (m : Stored ρ) (fmt fmt' : Format) (tag tag' : Tag)
    (hs : save fmt tag d name m = .ok d') (hne : fmt ≠ fmt' ∨ tag ≠ tag') :
    load parse fmt' tag' d' name = none := by
  rw [save] at hs
  split_ifs at hs with hc
  obtain rfl := Except.ok.inj hs
  have : ¬ (fmt = fmt' ∧ tag = tag') := by tauto
  simp [load, Disk.put, decode, encode, this]

/-! ## Python -/

theorem take_drop_dot (l : List Char) :
    (∀ c ∈ l, c ≠ '.') ∧ l.dropWhile (· ≠ '.') = [] ∨
      ∃ r, l.dropWhile (· ≠ '.') = '.' :: r ∧ l = l.takeWhile (· ≠ '.') ++ '.' :: r := by
  induction l with
  | nil => exact .inl ⟨by simp, rfl⟩
  | cons a l ih =>
    by_cases ha : a = '.'
    · subst ha
      exact .inr ⟨l, by simp, by simp⟩
    · rcases ih with ⟨h1, h2⟩ | ⟨r, h1, h2⟩
      · refine .inl ⟨by simpa [ha] using h1, ?_⟩
        rw [List.dropWhile_cons_of_pos (by simpa using ha)]
        exact h2
      · refine .inr ⟨r, ?_, ?_⟩
        · rw [List.dropWhile_cons_of_pos (by simpa using ha)]
          exact h1
        · rw [List.takeWhile_cons_of_pos (by simpa using ha), List.cons_append, ← h2]

/-- The extension of a name. -/
theorem extension_iff (name ext : List Char) :
    extension name = some ext ↔ Named name ext ∧ name ≠ ['.', '.'] := by
  have key : ∀ (r : List Char), (∀ c ∈ r, c ≠ '.') → ∀ s, (r ++ '.' :: s).dropWhile (· ≠ '.') = '.' :: s ∧
      (r ++ '.' :: s).takeWhile (· ≠ '.') = r := by
    intro r hr s
    have hr' : ∀ c ∈ r, (decide (c ≠ '.')) = true := fun c hc => by simpa using hr c hc
    constructor
    · rw [List.dropWhile_append_of_pos hr', List.dropWhile_cons_of_neg (by simp)]
    · rw [List.takeWhile_append_of_pos hr', List.takeWhile_cons_of_neg (by simp), List.append_nil]
  have hsome : ∀ stem e : List Char, name = stem ++ '.' :: e → '.' ∉ e →
      extension name = if name = ['.', '.'] ∨ stem = [] then none else some e := by
    rintro stem e rfl he
    have hrev : (stem ++ '.' :: e).reverse = e.reverse ++ '.' :: stem.reverse := by simp
    obtain ⟨h1, h2⟩ := key e.reverse (fun c hc => fun hcc => he (by simpa [hcc] using hc)) stem.reverse
    simp only [extension, hrev, h1, h2, List.drop_succ_cons, List.drop_zero, List.reverse_eq_nil_iff,
      List.reverse_reverse]
  constructor
  · intro h
    rcases take_drop_dot name.reverse with ⟨h1, h2⟩ | ⟨r, h1, h2⟩
    · rw [extension] at h
      simp only [h2, List.drop_nil, or_true, if_true] at h
      exact absurd h (by simp)
    · have hn : name = r.reverse ++ '.' :: (name.reverse.takeWhile (· ≠ '.')).reverse := by
        have := congrArg List.reverse h2
        simpa using this
      have hd : '.' ∉ (name.reverse.takeWhile (· ≠ '.')).reverse := by
        intro hm
        have := List.all_takeWhile (p := (· ≠ '.')) (l := name.reverse)
        simp only [List.all_eq_true] at this
        simpa using this '.' (List.mem_reverse.1 hm)
      rw [hsome _ _ hn hd] at h
      split_ifs at h with hc
      push Not at hc
      obtain rfl := Option.some.inj h
      exact ⟨⟨_, hc.2, hn, hd⟩, hc.1⟩
  · rintro ⟨⟨stem, hs, hn, hd⟩, hdd⟩
    rw [hsome stem ext hn hd, if_neg (by tauto)]

theorem formatOf_ok {ext : List Char} (hn : Named name ext) (hdd : name ≠ ['.', '.']) :
    formatOf name = .ok (if ext = ['j', 's', 'o', 'n'] then .json else .binary) := by
  rw [formatOf, (extension_iff name ext).2 ⟨hn, hdd⟩]

theorem formatOf_panic (hn : ¬ (∃ ext, Named name ext) ∨ name = ['.', '.']) : formatOf name = .error .other := by
  rw [formatOf]
  cases h : extension name with
  | none => rfl
  | some e =>
    have := (extension_iff name e).1 h
    rcases hn with h1 | h1
    · exact absurd ⟨e, this.1⟩ h1
    · exact absurd h1 this.2

/-- In Python: with a name `stem.ext` that can be created, `save` returns `True`, and `load` gives the model back unless
the extension is `json` and some number is not finite; other files are kept. -/
theorem C129_roundtrip_partial (parse : ℝ → ℝ) (d : Disk ρ) (m : Stored ρ) {name ext : List Char} (hn : Named name ext)
    (hdd : name ≠ ['.', '.']) (hc : d.creatable name = true) : ∃ d', pySave d name m = .ok (true, d') ∧
      (∀ other, other ≠ name → d'.file other = d.file other) ∧
      pyLoad parse d' name = if ext ≠ ['j', 's', 'o', 'n'] then .ok m
        else if ∀ v ∈ m.values, v ≠ none then .ok ⟨m.values.map (Option.map parse), m.rest⟩ else .error .other := by
  have hf := formatOf_ok hn hdd
  obtain ⟨d', hs, hl, ho⟩ := C129_same_format (parse := parse) d name m
    (if ext = ['j', 's', 'o', 'n'] then .json else .binary) .plain hc
  refine ⟨d', by rw [pySave, hf]; show (save _ _ _ _ _ >>= _) = _; rw [hs]; rfl, ho, ?_⟩
  rw [pyLoad, hf]
  show unwrap (load parse _ .plain d' name) = _
  by_cases he : ext = ['j', 's', 'o', 'n']
  · rw [if_pos he] at hl ⊢
    rw [if_neg (not_not.2 he)]
    by_cases ha : ∀ v ∈ m.values, v ≠ none
    · rw [if_pos ha, (hl _).2 ⟨fun _ => ha, rfl⟩]
      rfl
    · rw [if_neg ha]
      cases hr : load parse .json .plain d' name with
      | none => rfl
      | some r => exact absurd (((hl r).1 hr).1 rfl) ha
  · rw [if_neg he] at hl ⊢
    rw [if_pos he, (hl m).2 ⟨by simp, rfl⟩]
    rfl

/-- In Python, `save` either returns `True` or panics: it panics when the name has no extension or the file cannot be
created. -/
theorem C129_save_iff (d : Disk ρ) (name : List Char) (m : Stored ρ) :
    ((∃ r, pySave d name m = .ok r) ↔ (∃ ext, Named name ext) ∧ name ≠ ['.', '.'] ∧ d.creatable name = true) ∧
    ∀ r, pySave d name m = .ok r → r.1 = true := by
  have main : (∃ r, pySave d name m = .ok r) → ((∃ ext, Named name ext) ∧ name ≠ ['.', '.'] ∧
      d.creatable name = true) := by
    rintro ⟨r, hr⟩
    by_cases hn : ¬ (∃ ext, Named name ext) ∨ name = ['.', '.']
    · rw [pySave, formatOf_panic hn] at hr
      exact absurd hr (by simp [bind, Except.bind])
    · push Not at hn
      obtain ⟨⟨ext, he⟩, hdd⟩ := hn
      refine ⟨⟨ext, he⟩, hdd, ?_⟩
      by_contra hc
      rw [pySave, formatOf_ok he hdd] at hr
      simp [bind, Except.bind, save, hc] at hr
  refine ⟨⟨main, fun ⟨⟨ext, he⟩, hdd, hc⟩ => ?_⟩, fun r hr => ?_⟩
  · obtain ⟨d', h, _⟩ := C129_roundtrip_partial id d m he hdd hc
    exact ⟨_, h⟩
  · obtain ⟨⟨ext, he⟩, hdd, hc⟩ := main ⟨r, hr⟩
    obtain ⟨d', h, _⟩ := C129_roundtrip_partial id d m he hdd hc
    rw [h] at hr
    rw [← Except.ok.inj hr]

/-- The documentation of `save` says that `False` is returned when saving fails, and that a binary format is used for a
name which does not end with `.json`: both a file that cannot be created and a name without extension panic instead. -/
theorem C129_refuted_save (m : Stored ρ) :
    (∀ d : Disk ρ, pySave d ['m', 'o', 'd', 'e', 'l'] m = .error .other) ∧
    (∀ d : Disk ρ, pySave d ['.', 'j', 's', 'o', 'n'] m = .error .other) ∧
    ∀ (d : Disk ρ) (name : List Char), d.creatable name = false → pySave d name m = .error .other := by
  refine ⟨fun d => rfl, fun d => rfl, fun d name hc => ?_⟩
  rw [pySave]
  cases hf : formatOf name with
  | error e =>
    rw [formatOf] at hf
    split at hf
    · exact hf ▸ rfl
    · exact absurd hf (by simp)
  | ok f => simp [bind, Except.bind, save, hc]

/-! ## Single surrogates -/

/-- A surrogate saved and loaded with the same format: dense surrogates are read back, sparse ones never. -/
theorem C129_refuted_sparse (d : Disk ρ) (name : List Char) (m : Stored ρ) (fmt : Format)
    (hc : d.creatable name = true) :
    (∃ d', save fmt (saveTag false) d name m = .ok d' ∧
      ∀ r, load parse fmt loadTag d' name = some r ↔ (fmt = .json → AllFinite m) ∧ r = asRead parse fmt m) ∧
    ∃ d', save fmt (saveTag true) d name m = .ok d' ∧ load parse fmt loadTag d' name = none := by
  constructor
  · obtain ⟨d', h1, h2, _⟩ := C129_same_format (parse := parse) d name m fmt .gp hc
    exact ⟨d', h1, h2⟩
  · obtain ⟨d', h1, -⟩ := C129_same_format (parse := parse) d name m fmt .sgp hc
    exact ⟨d', h1, C129_other_format d d' name m fmt fmt .sgp .gp h1 (.inr (by decide))⟩

/-! ## Trained models -/

section

open Gp Means Kernels

variable {dx h : ℕ}

/-- An expert with what it was trained with. -/
structure TrainedExpert (dx h : ℕ) where
  n : ℕ
  la : LinAlg
  kernel : Kernel
  mean : Mean
  nugget : ℝ
  theta : Fin h → ℝ
  w : Fin dx → Fin h → ℝ
  x : Fin n → Fin dx → ℝ
  y : Fin n → ℝ
  g : Gp.Model n dx h
  fit : fitWith la kernel mean nugget theta w x y = some g

/-- The outputs of the points of an expert are exactly those of its mean model. -/
def TrainedExpert.TrendOutputs (e : TrainedExpert dx h) : Prop :=
  ∃ t, IsTrend e.mean t ∧ ∀ i, e.y i = t (e.x i)

theorem gpValues_finite {n : ℕ} (g : Gp.Model n dx h) (kept : List ℝ) :
    (∀ v ∈ gpValues g kept, v ≠ none) ↔ g.inner.sigma2 ≠ 0 := by
  rw [gpValues]
  constructor
  · intro hv h0
    refine hv _ (List.mem_append_right _ List.mem_cons_self) ?_
    rw [likelihoodValue, if_pos h0]
  · intro h0 v hv
    rcases List.mem_append.1 hv with hv | hv
    · obtain ⟨a, -, rfl⟩ := List.mem_map.1 hv
      exact Option.some_ne_none _
    · rcases List.mem_cons.1 hv with rfl | hv
      · rw [likelihoodValue, if_neg h0]
        exact Option.some_ne_none _
      · obtain ⟨a, -, rfl⟩ := List.mem_map.1 hv
        exact Option.some_ne_none _

/-- A trained mixture saved in a JSON file is loaded if and only if on no cluster the outputs are exactly those of the
mean model of the expert (constant outputs, say): the likelihood of such an expert is infinite. Saved in a binary file
a mixture is always loaded. -/
theorem C129_mixture (experts : List (TrainedExpert dx h)) (kept : List (List ℝ))
    (hk : kept.length = experts.length) (others : List ℝ) (rest : ρ) (d : Disk ρ) (name : List Char)
    (hc : d.creatable name = true) :
    (∃ d', save .json .plain d name ⟨mixtureValues (experts.map fun e => ⟨e.n, e.g⟩) kept others, rest⟩ = .ok d' ∧
      ((∃ r, load parse .json .plain d' name = some r) ↔ ∀ e ∈ experts, ¬ e.TrendOutputs)) ∧
    ∃ d', save .binary .plain d name ⟨mixtureValues (experts.map fun e => ⟨e.n, e.g⟩) kept others, rest⟩ = .ok d' ∧
      load parse .binary .plain d' name =
        some ⟨mixtureValues (experts.map fun e => ⟨e.n, e.g⟩) kept others, rest⟩ := by
  set m : Stored ρ := ⟨mixtureValues (experts.map fun e => ⟨e.n, e.g⟩) kept others, rest⟩ with hm
  have hfin : AllFinite m ↔ ∀ e ∈ experts, ¬ e.TrendOutputs := by
    have hrest : AllFinite m ↔
        ∀ v ∈ ((experts.map fun e : TrainedExpert dx h => (⟨e.n, e.g⟩ : (n : ℕ) × Gp.Model n dx h)).zipWith
          (fun g k => gpValues g.2 k) kept).flatten, v ≠ none := by
      constructor
      · intro hv v hvm
        exact hv v (List.mem_append_left _ hvm)
      · intro hv v hvm
        rcases List.mem_append.1 hvm with h1 | h1
        · exact hv v h1
        · obtain ⟨a, -, rfl⟩ := List.mem_map.1 h1
          exact Option.some_ne_none _
    rw [hrest]
    clear hrest hm m
    induction experts generalizing kept with
    | nil => simp
    | cons e es ih =>
      cases kept with
      | nil => simp at hk
      | cons k ks =>
        have ih' := ih ks (by simpa using hk)
        rw [List.map_cons, List.zipWith_cons_cons, List.flatten_cons, List.forall_mem_cons]
        have hs : e.g.inner.sigma2 ≠ 0 ↔ ¬ e.TrendOutputs := not_congr (C107_trend e.fit).2
        refine Iff.trans ?_ (and_congr ((gpValues_finite e.g k).trans hs) ih')
        constructor
        · exact fun hv => ⟨fun v h1 => hv v (List.mem_append_left _ h1), fun v h1 =>
            hv v (List.mem_append_right _ h1)⟩
        · exact fun ⟨h1, h2⟩ v hv => (List.mem_append.1 hv).elim (h1 v) (h2 v)
  constructor
  · obtain ⟨d', h1, h2, _⟩ := C129_same_format (parse := parse) d name m .json .plain hc
    refine ⟨d', h1, ?_⟩
    rw [← hfin]
    exact ⟨fun ⟨r, hr⟩ => ((h2 r).1 hr).1 rfl, fun ha => ⟨_, (h2 _).2 ⟨fun _ => ha, rfl⟩⟩⟩
  · obtain ⟨d', h1, h2, _⟩ := C129_same_format (parse := parse) d name m .binary .plain hc
    exact ⟨d', h1, (h2 m).2 ⟨by simp, rfl⟩⟩

theorem ofFn_flatten_inj {a b : ℕ} {f g : Fin a → Fin b → ℝ}
    (hfg : (List.ofFn fun i => List.ofFn fun j => f i j).flatten = (List.ofFn fun i => List.ofFn fun j => g i j).flatten) :
    f = g := by
  have h1 : (List.ofFn fun i => List.ofFn fun j => f i j) = List.ofFn fun i => List.ofFn fun j => g i j := by
    refine List.eq_iff_flatten_eq.2 ⟨hfg, ?_⟩
    simp [List.map_ofFn, Function.comp_def]
  funext i j
  have h2 := congrFun (List.ofFn_injective h1) i
  exact congrFun (List.ofFn_injective h2) j

theorem flatten_ofFn_length {a b : ℕ} (f : Fin a → Fin b → ℝ) :
    ((List.ofFn fun i => List.ofFn fun j => f i j).flatten).length = a * b := by
  simp [List.length_flatten, List.map_ofFn, Function.comp_def]

/-- The numbers written determine the model: two models with the same kernel, mean model and sizes and the same numbers
are equal, except that the likelihood of a model with a zero variance is read as infinite. -/
theorem C129_contents {n : ℕ} {g g' : Gp.Model n dx h} {kept kept' : List ℝ} (hk : g.kernel = g'.kernel)
    (hm : g.mean = g'.mean) (hl : kept.length = kept'.length) (hv : gpValues g kept = gpValues g' kept') :
    kept = kept' ∧ { g with likelihood := 0 } = { g' with likelihood := 0 } ∧
      (g.inner.sigma2 ≠ 0 → g.likelihood = g'.likelihood) := by
  obtain ⟨k, me, th, w, lik, ⟨s2, be, ga, rc, ft, fq⟩, xd, xm, xs, yd, ym, ys⟩ := g
  obtain ⟨k', me', th', w', lik', ⟨s2', be', ga', rc', ft', fq'⟩, xd', xm', xs', yd', ym', ys'⟩ := g'
  obtain rfl : k = k' := hk
  obtain rfl : me = me' := hm
  simp only [gpValues] at hv
  obtain ⟨hθ, hv0⟩ := List.append_inj hv (by simp)
  obtain ⟨hlik, hv1⟩ := List.cons.inj hv0
  have hinj : Function.Injective (List.map (some : ℝ → Option ℝ)) :=
    List.map_injective_iff.2 (Option.some_injective ℝ)
  have hv2 := hinj hv1
  obtain rfl : th = th' := List.ofFn_injective (hinj hθ)
  obtain ⟨hw0, h1⟩ := List.append_inj' hv2 hl
  obtain ⟨hw1, h2⟩ := List.append_inj' hw0 (by simp)
  obtain ⟨hw2, h3⟩ := List.append_inj' hw1 (by simp)
  obtain ⟨hw3, h4⟩ := List.append_inj' hw2 (by simp)
  obtain ⟨hw4, h5⟩ := List.append_inj' hw3 (by simp)
  obtain ⟨hw5, h6⟩ := List.append_inj' hw4 ((flatten_ofFn_length _).trans (flatten_ofFn_length _).symm)
  obtain ⟨hw6, h7⟩ := List.append_inj' hw5 ((flatten_ofFn_length _).trans (flatten_ofFn_length _).symm)
  obtain ⟨hw7, h8⟩ := List.append_inj' hw6 ((flatten_ofFn_length _).trans (flatten_ofFn_length _).symm)
  obtain ⟨hw8, h9⟩ := List.append_inj' hw7 ((flatten_ofFn_length _).trans (flatten_ofFn_length _).symm)
  obtain ⟨hw9, h10⟩ := List.append_inj' hw8 ((flatten_ofFn_length _).trans (flatten_ofFn_length _).symm)
  obtain ⟨hw10, h11⟩ := List.append_inj' hw9 (by simp)
  obtain ⟨hw11, h12⟩ := List.append_inj' hw10 (by simp)
  obtain rfl : s2 = s2' := by simpa using hw11
  obtain rfl : be = be' := by
    funext i j
    rw [Subsingleton.elim j 0]
    exact congrFun (List.ofFn_injective h12) i
  obtain rfl : ga = ga' := by
    funext i j
    rw [Subsingleton.elim j 0]
    exact congrFun (List.ofFn_injective h11) i
  obtain rfl : rc = rc' := ofFn_flatten_inj h10
  obtain rfl : ft = ft' := ofFn_flatten_inj h9
  obtain rfl : fq = fq' := ofFn_flatten_inj h8
  obtain rfl : w = w' := ofFn_flatten_inj h7
  obtain rfl : xd = xd' := ofFn_flatten_inj h6
  obtain rfl : xm = xm' := List.ofFn_injective h5
  obtain rfl : xs = xs' := List.ofFn_injective h4
  obtain rfl : yd = yd' := List.ofFn_injective h3
  obtain ⟨rfl, rfl⟩ : ym = ym' ∧ ys = ys' := by simpa using h2
  refine ⟨h1, rfl, fun h0 => ?_⟩
  simp only [likelihoodValue] at hlik
  rw [if_neg h0, if_neg h0] at hlik
  exact Option.some.inj hlik

/-- A model trained on constant outputs at distinct inputs is saved as `model.json` with success, and cannot be loaded;
trained on other outputs with a constant mean, it can. -/
theorem C129_refuted_json (kernel : Kernel) {n : ℕ} {theta : Fin h → ℝ} {w : Fin dx → Fin h → ℝ}
    {x : Fin n → Fin dx → ℝ} (hθ : ∀ l, 0 ≤ theta l) (hw : ∀ a, ∃ l, theta l ≠ 0 ∧ w a l ≠ 0)
    (hx : Function.Injective x) (h2 : 2 ≤ n) (y : Fin n → ℝ) (kept others : List ℝ) (rest : ρ) (d : Disk ρ)
    (name : List Char) (hn : Named name ['j', 's', 'o', 'n']) (hc : d.creatable name = true) :
    ∃ g, fitWith Gp.exact kernel .constant 0 theta w x y = some g ∧
      ∃ d', pySave d name ⟨mixtureValues [⟨n, g⟩] [kept] others, rest⟩ = .ok (true, d') ∧
        ((∃ r, pyLoad parse d' name = .ok r) ↔ ¬ ∃ c, ∀ i, y i = c) := by
  obtain ⟨g, hg, -⟩ := C118_distinct kernel hθ hw hx y h2
  have hdd : name ≠ ['.', '.'] := by
    obtain ⟨stem, hs, rfl, -⟩ := hn
    intro he
    have := congrArg List.length he
    simp at this
  refine ⟨g, hg, ?_⟩
  let e : TrainedExpert dx h := ⟨n, _, kernel, .constant, 0, theta, w, x, y, g, hg⟩
  have hf := formatOf_ok hn hdd
  rw [if_pos rfl] at hf
  obtain ⟨⟨d', h1, h3⟩, -⟩ := C129_mixture (parse := parse) [e] [kept] rfl others rest d name hc
  refine ⟨d', ?_, ?_⟩
  · rw [pySave, hf]
    show (save _ _ _ _ _ >>= _) = _
    have h1' : save .json .plain d name ⟨mixtureValues [⟨n, g⟩] [kept] others, rest⟩ = .ok d' := h1
    rw [h1']
    rfl
  · have ht : (∀ e' ∈ [e], ¬ e'.TrendOutputs) ↔ ¬ ∃ c, ∀ i, y i = c := by
      rw [List.forall_mem_singleton]
      refine not_congr ⟨fun ⟨t, ⟨c, hc⟩, hy⟩ => ⟨c, fun i => (hy i).trans (hc _)⟩, fun ⟨c, hc⟩ =>
        ⟨fun _ => c, IsTrend.const c, hc⟩⟩
    rw [← ht, ← h3, pyLoad, hf]
    show (∃ r, unwrap (load parse .json .plain d' name) = .ok r) ↔ _
    cases load parse .json .plain d' name with
    | none => simp [unwrap]
    | some r => simp [unwrap]

end

/-! ## Examples -/

/-- `model.v2.json` is a JSON file, `model.bin` and `model.` are binary files. -/
example : formatOf "model.v2.json".toList = .ok .json ∧ formatOf "model.bin".toList = .ok .binary ∧
    formatOf "model.".toList = .ok .binary ∧ Named "model.v2.json".toList "json".toList := by
  refine ⟨by decide, by decide, by decide, "model.v2".toList, by decide, by decide, by decide⟩

/-- A disk where everything can be created, and an infinite number: read in the binary file only. -/
example : ∃ d1 d2 : Disk Unit, pySave ⟨fun _ => true, fun _ => none⟩ "a.bin".toList ⟨[some 1, none], ()⟩ = .ok (true, d1) ∧
    pyLoad id d1 "a.bin".toList = .ok ⟨[some 1, none], ()⟩ ∧
    pySave ⟨fun _ => true, fun _ => none⟩ "a.json".toList ⟨[some 1, none], ()⟩ = .ok (true, d2) ∧
    pyLoad id d2 "a.json".toList = .error .other := by
  obtain ⟨d1, h1, -, h2⟩ := C129_roundtrip_partial (ρ := Unit) id ⟨fun _ => true, fun _ => none⟩ ⟨[some 1, none], ()⟩
    (name := "a.bin".toList) (ext := "bin".toList) ⟨"a".toList, by decide, by decide, by decide⟩ (by decide) rfl
  obtain ⟨d2, h3, -, h4⟩ := C129_roundtrip_partial (ρ := Unit) id ⟨fun _ => true, fun _ => none⟩ ⟨[some 1, none], ()⟩
    (name := "a.json".toList) (ext := "json".toList) ⟨"a".toList, by decide, by decide, by decide⟩ (by decide) rfl
  refine ⟨d1, d2, h1, ?_, h3, ?_⟩
  · rw [h2, if_pos (by decide)]
  · rw [h4, if_neg (by decide), if_neg (by simp)]

/-- Three inputs on a line meet the hypotheses of the theorem on constant outputs. -/
example (kernel : Kernels.Kernel) : ∃ g, Gp.fitWith Gp.exact kernel .constant 0 (fun _ : Fin 1 => 2)
    (fun (_ : Fin 1) (_ : Fin 1) => 1) (fun (i : Fin 3) (_ : Fin 1) => (i.val : ℝ)) (fun _ => 5) = some g ∧
    ∃ d', pySave (ρ := Unit) ⟨fun _ => true, fun _ => none⟩ "a.json".toList ⟨mixtureValues [⟨3, g⟩] [[]] [], ()⟩ =
      .ok (true, d') ∧ ¬ ∃ r, pyLoad id d' "a.json".toList = .ok r := by
  obtain ⟨g, hg, d', h1, h2⟩ := C129_refuted_json (parse := id) (ρ := Unit) kernel (theta := fun _ : Fin 1 => 2)
    (w := fun (_ : Fin 1) (_ : Fin 1) => 1) (x := fun (i : Fin 3) (_ : Fin 1) => (i.val : ℝ)) (fun _ => by norm_num)
    (fun _ => ⟨0, by norm_num, by norm_num⟩)
    (fun i j hij => Fin.ext (Nat.cast_injective (R := ℝ) (congrFun hij 0))) (by norm_num) (fun _ => 5) [] [] ()
    ⟨fun _ => true, fun _ => none⟩ "a.json".toList ⟨"a".toList, by decide, by decide, by decide⟩ rfl
  exact ⟨g, hg, d', h1, fun hr => (h2.1 hr) ⟨5, fun _ => rfl⟩⟩

end Verif.Props
