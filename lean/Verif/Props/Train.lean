import Verif.Model.Train
import Verif.Props.MoeSelect
import Verif.Props.MoeAuto

/-!
# C120: training of mixtures of experts
-/

set_option autoImplicit false

namespace Verif.Props

open Verif Spec Moe Train

variable {R G T E : Type} {env : Env R G T E} {p : Params G T} {nx : ℕ} {data : List (List R)}

theorem bindF_ok {α β : Type} {x : Except Fail α} {f : α → Except Fail β} {b : β} :
    (x >>= f) = .ok b ↔ ∃ a, x = .ok a ∧ f a = .ok b := by
  cases x <;> simp [bind, Except.bind]

theorem liftP_ok {α : Type} {x : Except Panic α} {a : α} : liftP x = .ok a ↔ x = .ok a := by
  cases x <;> simp [liftP]

theorem liftE_ok {α : Type} {x : Except MoeErr α} {a : α} : liftE x = .ok a ↔ x = .ok a := by
  cases x <;> simp [liftE]

theorem liftPE_ok {α : Type} {x : Except Panic (Except MoeErr α)} {a : α} : liftPE x = .ok a ↔ x = .ok (.ok a) := by
  cases x <;> simp [liftPE, liftE_ok]

/-- Rows of data assigned to cluster `c` by the mixture `g`, in the order of the data. -/
def rowsOf (env : Env R G T E) (nx : ℕ) (data : List (List R)) (g : G) (c : ℕ) : List (List R) :=
  data.filter fun z => decide (env.assign g (z.take nx) = c)

theorem cluster_rowsOf (g : G) (c : ℕ) :
    cluster data (data.map fun z => env.assign g (z.take nx)) c = rowsOf env nx data g c := by
  unfold rowsOf
  induction data with
  | nil => rfl
  | cons z data ih =>
    by_cases hz : env.assign g (z.take nx) = c
    · simp only [cluster] at ih
      simp [cluster, hz, ih]
    · simp only [cluster] at ih
      simp [cluster, hz, ih]

theorem row_ok {α : Type} {l : List α} {i : ℕ} {a : α} : row l i = .ok a ↔ l[i]? = some a := by
  unfold row
  cases l[i]? <;> simp

/-- What is expected of the expert of a cluster with number `c` and rows `rows`: models allowed by the specifications,
the hyperparameter tuning given for that cluster (the only one if one is given), trained on those rows. -/
def ExpertFor (env : Env R G T E) (p : Params G T) (c : ℕ) (rows : List (List R)) (e : E) : Prop :=
  ∃ mean corr t, p.regression.contains mean = true ∧ p.correlation.contains corr = true ∧
    (p.gpType = .full → p.tunings = [t] ∨ p.tunings[c]? = some t) ∧ (p.gpType = .sparse → p.tunings[0]? = some t) ∧
    env.fit p.gpType mean corr t rows = .ok e

theorem findExpert_ok {nc : ℕ} {rows : List (List R)} {e : E} (h : findExpert env p nx nc rows = .ok e) :
    ExpertFor env p nc rows e := by
  unfold findExpert at h
  rw [bindF_ok] at h
  obtain ⟨k, hk, h⟩ := h
  rw [bindF_ok] at h
  obtain ⟨t, ht, h⟩ := h
  rw [liftPE_ok] at hk
  rw [liftP_ok] at ht
  rw [liftE_ok] at h
  obtain ⟨h1, h2⟩ := C59_only_allowed _ _ _ _ _ _ _ hk
  refine ⟨k.1, k.2, t, h1, h2, fun hg => ?_, fun hg => ?_, h⟩
  · rw [hg] at ht
    simp only [tuningOf] at ht
    split_ifs at ht with hc
    · rw [row_ok] at ht
      obtain ⟨s, hs⟩ := List.length_eq_one_iff.1 hc.2
      rw [hs] at ht ⊢
      left
      simpa using ht
    · rw [row_ok] at ht
      exact Or.inr ht
  · rw [hg] at ht
    exact row_ok.1 ht

theorem trainExperts_ok {nb : ℕ} {clusters : List (List (List R))} {nc : ℕ} {es : List E}
    (h : trainExperts env p nx nb nc clusters = .ok es) :
    es.length = clusters.length ∧ ∀ i (hi : i < es.length) (hi' : i < clusters.length),
      ExpertFor env p (nc + i) clusters[i] es[i] ∧ (1 < nb → 3 ≤ clusters[i].length) := by
  induction clusters generalizing nc es with
  | nil =>
    simp only [trainExperts, Except.ok.injEq] at h
    subst h
    simp
  | cons c cs ih =>
    simp only [trainExperts] at h
    split_ifs at h with hc
    rw [bindF_ok] at h
    obtain ⟨e, he, h⟩ := h
    rw [bindF_ok] at h
    obtain ⟨es', hes, h⟩ := h
    simp only [Except.ok.injEq] at h
    subst h
    obtain ⟨h1, h2⟩ := ih hes
    refine ⟨by simp [h1], fun i hi hi' => ?_⟩
    cases i with
    | zero => exact ⟨findExpert_ok he, fun hn => by simpa using fun h3 => hc ⟨hn, h3⟩⟩
    | succ i =>
      have := h2 i (by simpa using hi) (by simpa using hi')
      rw [Nat.add_assoc, Nat.add_comm 1] at this
      exact this

/-- The experts of a mixture are those of the clusters of its data. -/
structure Sound (env : Env R G T E) (p : Params G T) (nx : ℕ) (data : List (List R)) (g : G) (es : List E) : Prop where
  count : es.length = env.nClusters g
  trained : ∀ c (hc : c < es.length), ExpertFor env p c (rowsOf env nx data g c) es[c]
  size : 1 < env.nClusters g → ∀ c < env.nClusters g, 3 ≤ (rowsOf env nx data g c).length

theorem experts_sound {g : G} {clusters : List (List (List R))} {es : List E}
    (hc : liftP (sortByCluster (env.nClusters g) data (data.map fun z => env.assign g (z.take nx))) = .ok clusters)
    (he : trainExperts env p nx clusters.length 0 clusters = .ok es) : Sound env p nx data g es := by
  rw [liftP_ok, C53_clusters _ _ _ (by simp), Except.ok.injEq] at hc
  subst hc
  obtain ⟨h1, h2⟩ := trainExperts_ok he
  rw [List.length_map, List.length_range] at h1
  refine ⟨h1, fun c hc => ?_, fun hn c hc => ?_⟩
  · have := (h2 c hc (by simpa [h1] using hc)).1
    simpa [cluster_rowsOf] using this
  · have := (h2 c (by omega) (by simpa using hc)).2 (by simpa using hn)
    simpa [cluster_rowsOf] using this

theorem trainOnClusters_ok {again : Params G T → Except Fail (Mixture R G T E)} {g : G} {r : Recombination}
    {m : Mixture R G T E} (h : trainOnClusters env again p nx data g r = .ok m) :
    ∃ es, Sound env p nx data g es ∧
      (¬(r = .smooth none ∧ p.nClusters.isMulti = true) → m = ⟨r, es, g, data, p⟩) ∧
      ((r = .smooth none ∧ p.nClusters.isMulti = true) → ∃ test train f, extractPart data 5 = .ok (test, train) ∧
        optimizeHeavisideFactor (decide (p.recombination = .hard)) p.nClusters
          (fun f => env.error es g f test) = .ok f ∧
        checkParams p.kplsDim (.fixed (env.nClusters g)) p.tunings.length = .ok (.ok ()) ∧
        again { p with nClusters := .fixed (env.nClusters g), recombination := .smooth (some f) } = .ok m) := by
  unfold trainOnClusters at h
  simp only [bindF_ok] at h
  obtain ⟨clusters, hc, u, hu, es, he, h⟩ := h
  refine ⟨es, experts_sound hc he, fun hr => ?_, fun hr => ?_⟩
  · rw [if_neg hr] at h
    simpa using h.symm
  · rw [if_pos hr] at h
    simp only [bindF_ok, liftP_ok, liftPE_ok] at h
    obtain ⟨parts, h1, f, h2, v, h3, h4⟩ := h
    exact ⟨parts.1, parts.2, f, h1, h2, h3, h4⟩

theorem train_succ {fuel : ℕ} {m : Mixture R G T E} : train env (fuel + 1) p nx data = .ok m ↔
    ∃ c training g, resolve env p data = .ok c ∧ gmmData p c.2 data = .ok training ∧
      makeGmx env p c.1 c.2 training = .ok g ∧
      trainOnClusters env (fun p' => train env fuel p' nx data) p nx data g c.2 = .ok m := by
  simp only [train, bindF_ok]
  constructor
  · rintro ⟨c, h1, t, h2, g, h3, h4⟩
    exact ⟨c, t, g, h1, h2, h3, h4⟩
  · rintro ⟨c, t, g, h1, h2, h3, h4⟩
    exact ⟨c, h1, t, h2, g, h3, h4⟩

/-- A trained mixture keeps the training data and has one expert for each cluster, trained on the rows of data assigned
to that cluster by the mixture itself, with allowed models and the tuning of the cluster; several clusters have three
points or more each. -/
theorem C120_one_expert_per_cluster {fuel : ℕ} {m : Mixture R G T E} (h : train env fuel p nx data = .ok m) :
    m.data = data ∧ Sound env p nx data m.gmx m.experts := by
  induction fuel generalizing p with
  | zero => simp [train] at h
  | succ fuel ih =>
    obtain ⟨c, t, g, _, _, _, h⟩ := train_succ.1 h
    obtain ⟨es, hs, h1, h2⟩ := trainOnClusters_ok h
    by_cases hr : c.2 = .smooth none ∧ p.nClusters.isMulti = true
    · obtain ⟨_, _, f, _, _, _, h3⟩ := h2 hr
      obtain ⟨h4, h5⟩ := ih h3
      exact ⟨h4, h5.count, h5.trained, h5.size⟩
    · rw [h1 hr]
      exact ⟨rfl, hs⟩

/-- The rows on which the experts are trained are the training data, each point once, as long as the Gaussian mixture
assigns points to clusters it has. -/
theorem C120_every_point_once {fuel : ℕ} {m : Mixture R G T E} (h : train env fuel p nx data = .ok m)
    (ha : ∀ z ∈ data, env.assign m.gmx (z.take nx) < env.nClusters m.gmx) :
    ((List.range m.experts.length).flatMap fun c => rowsOf env nx data m.gmx c).Perm data := by
  rw [(C120_one_expert_per_cluster h).2.count, List.flatMap_def]
  obtain ⟨cl, h1, h2⟩ := C53_partition_iff (env.nClusters m.gmx) data
    (data.map fun z => env.assign m.gmx (z.take nx)) (by simp)
  rw [C53_clusters _ _ _ (by simp), Except.ok.injEq] at h1
  subst h1
  simp only [cluster_rowsOf] at h2
  exact h2.2 (by simpa using ha)

/-- Experts that go through the data they are trained on make a mixture with hard recombination that goes through the
training data. -/
theorem C120_hard_interpolates {fuel : ℕ} {m : Mixture R G T E} (h : train env fuel p nx data = .ok m)
    (ha : ∀ z ∈ data, env.assign m.gmx (z.take nx) < env.nClusters m.gmx)
    (hfit : ∀ ty mean corr t rows e, env.fit ty mean corr t rows = .ok e →
      ∀ x y, x ++ [y] ∈ rows → env.predict e x = y) (x : List R) (y : R) (hx : x.length = nx) (hz : x ++ [y] ∈ data) :
    predictHard env m x = .ok y := by
  obtain ⟨_, hs⟩ := C120_one_expert_per_cluster h
  have htake : (x ++ [y]).take nx = x := by rw [← hx]; simp
  have hc := ha _ hz
  rw [htake, ← hs.count] at hc
  obtain ⟨mean, corr, t, _, _, _, _, he⟩ := hs.trained _ hc
  have : row m.experts (env.assign m.gmx x) = .ok m.experts[env.assign m.gmx x] := row_ok.2 (by simp)
  unfold predictHard
  rw [this]
  simp only [bind, Except.bind]
  rw [hfit _ _ _ _ _ _ he x y]
  unfold rowsOf
  rw [List.mem_filter]
  exact ⟨hz, by simp [htake]⟩

theorem trainOnClusters_congr {again again' : Params G T → Except Fail (Mixture R G T E)} {g : G} {r : Recombination}
    (h : ∀ f, r = .smooth none → p.nClusters.isMulti = true →
      again { p with nClusters := .fixed (env.nClusters g), recombination := .smooth (some f) } =
      again' { p with nClusters := .fixed (env.nClusters g), recombination := .smooth (some f) }) :
    trainOnClusters env again p nx data g r = trainOnClusters env again' p nx data g r := by
  unfold trainOnClusters
  by_cases hr : r = .smooth none ∧ p.nClusters.isMulti = true
  · simp only [if_pos hr, h _ hr.1 hr.2]
  · simp only [if_neg hr]

theorem train_once {p : Params G T} {nb : ℕ} {f : ℚ} (hn : p.nClusters = .fixed nb)
    (hr : p.recombination = .smooth (some f)) (fuel : ℕ) : train env (fuel + 1) p nx data = train env 1 p nx data := by
  have hres : resolve env p data = .ok (nb, .smooth (some f)) := by simp [resolve, hn, hr]
  have key : ∀ g, trainOnClusters env (fun p' => train env fuel p' nx data) p nx data g (.smooth (some f)) =
      trainOnClusters env (fun p' => train env 0 p' nx data) p nx data g (.smooth (some f)) := fun g =>
    trainOnClusters_congr fun _ h => by simp at h
  rw [train, train, hres]
  simp only [bind, Except.bind, key]

/-- Training ends: it is done twice at most, whatever the parameters, the data and the results of the steps. -/
theorem C120_two_passes (env : Env R G T E) (p : Params G T) (nx : ℕ) (data : List (List R)) (k : ℕ) (hk : 2 ≤ k) :
    train env k p nx data = train env 2 p nx data := by
  obtain ⟨fuel, rfl⟩ := Nat.exists_eq_add_of_le hk
  rw [Nat.add_comm 2]
  have key : ∀ g r, trainOnClusters env (fun p' => train env (fuel + 1) p' nx data) p nx data g r =
      trainOnClusters env (fun p' => train env 1 p' nx data) p nx data g r := fun g r =>
    trainOnClusters_congr fun f _ _ =>
      train_once (p := { p with nClusters := _, recombination := .smooth (some f) }) rfl rfl fuel
  rw [train, train]
  simp only [key]

/-- A mixture trained with several hyperparameter tunings has no more clusters than tunings; the check of parameters
ensures it for a given number of clusters only, otherwise training panics. -/
theorem C120_tunings {fuel : ℕ} {m : Mixture R G T E} (h : train env fuel p nx data = .ok m) (hp : p.gpType = .full) :
    p.tunings.length = 1 ∨ env.nClusters m.gmx ≤ p.tunings.length := by
  obtain ⟨_, hs⟩ := C120_one_expert_per_cluster h
  by_contra hc
  rw [not_or, not_le] at hc
  obtain ⟨_, _, t, _, _, ht, _⟩ := hs.trained p.tunings.length (by rw [hs.count]; exact hc.2)
  obtain h1 | h1 := ht hp
  · exact hc.1 (by rw [h1]; rfl)
  · simp at h1

theorem trainExperts_exists {nb : ℕ} {clusters : List (List (List R))} {nc : ℕ} :
    (∃ es, trainExperts env p nx nb nc clusters = .ok es) ↔
      ∀ i (hi : i < clusters.length), (∃ e, findExpert env p nx (nc + i) clusters[i] = .ok e) ∧
        (1 < nb → 3 ≤ clusters[i].length) := by
  induction clusters generalizing nc with
  | nil => simp [trainExperts]
  | cons c cs ih =>
    simp only [trainExperts]
    constructor
    · rintro ⟨es, h⟩
      split_ifs at h with hc
      rw [bindF_ok] at h
      obtain ⟨e, he, h⟩ := h
      rw [bindF_ok] at h
      obtain ⟨es', hes, h⟩ := h
      intro i hi
      cases i with
      | zero => exact ⟨⟨e, he⟩, fun hn => by simpa using fun h3 => hc ⟨hn, h3⟩⟩
      | succ i =>
        have := ih.1 ⟨es', hes⟩ i (by simpa using hi)
        rw [Nat.add_assoc, Nat.add_comm 1] at this
        exact this
    · intro h
      obtain ⟨⟨e, he⟩, h3⟩ := h 0 (by simp)
      simp only [List.getElem_cons_zero, Nat.add_zero] at he h3
      obtain ⟨es, hes⟩ := ih (nc := nc + 1).2 fun i hi => by
        have := h (i + 1) (by simpa using hi)
        rw [Nat.add_assoc, Nat.add_comm 1]
        exact this
      rw [if_neg (by rintro ⟨h1, h2⟩; have := h3 h1; omega)]
      exact ⟨e :: es, by simp [he, hes, bind, Except.bind]⟩

theorem checkNumberOfPoints_rows (clusters : List (List (List R))) (rs : RegressionSpec)
    (h3 : 1 < clusters.length → ∀ c ∈ clusters, 3 ≤ c.length) :
    checkNumberOfPoints (clusters.map fun c => (⟨nx + 1, c⟩ : Mat R)) nx rs = .ok () ↔
      (1 < clusters.length → rs.quadratic = true → ∀ c ∈ clusters, nx + 2 ≤ 2 * c.length) := by
  unfold checkNumberOfPoints
  rw [List.length_map]
  by_cases hl : clusters.length > 1
  · rw [if_pos hl]
    have key : ∀ c ∈ clusters, (c.length * (nx + 1) < minNumberPoint nx rs ↔
        rs.quadratic = true ∧ ¬ nx + 2 ≤ 2 * c.length) := by
      intro c hc
      have := h3 hl c hc
      have hcm : (nx + 1) * c.length = c.length * (nx + 1) := Nat.mul_comm _ _
      unfold minNumberPoint
      split_ifs with h1 h2
      · simp only [h1, true_and, not_le]
        have he : 2 ∣ (nx + 1) * (nx + 2) := (Nat.even_mul_succ_self (nx + 1)).two_dvd
        rw [Nat.lt_div_iff_mul_lt' he]
        rw [show 2 * (c.length * (nx + 1)) = (nx + 1) * (2 * c.length) by ring]
        exact Nat.mul_lt_mul_left (by omega)
      · refine iff_of_false (not_lt.2 ?_) fun h => h1 h.1
        exact Nat.le_mul_of_pos_left _ (by omega)
      · refine iff_of_false (not_lt.2 ?_) fun h => h1 h.1
        have := Nat.le_mul_of_pos_right c.length (show 0 < nx + 1 by omega)
        omega
    constructor
    · intro h _ hq c hc
      by_contra hcon
      rw [if_pos] at h
      · cases h
      · rw [List.any_eq_true]
        exact ⟨⟨nx + 1, c⟩, List.mem_map_of_mem hc, by simpa using (key c hc).2 ⟨hq, hcon⟩⟩
    · intro h
      rw [if_neg]
      intro hany
      obtain ⟨m, hm, h5⟩ := List.any_eq_true.1 hany
      obtain ⟨c, hc, rfl⟩ := List.mem_map.1 hm
      obtain ⟨h6, h7⟩ := (key c hc).1 (by simpa using h5)
      exact h7 (h hl h6 c hc)
  · rw [if_neg hl]
    simp [hl]

/-- For a given number of clusters and a given recombination, training succeeds exactly when the Gaussian mixture can be
fitted, each cluster has an expert and, with several clusters, at least three points, and at least half of the number
of inputs plus one if the quadratic mean is allowed (which is not enough for such a mean, see C58). -/
theorem C120_succeeds_iff {fuel nb : ℕ} (hn : p.nClusters = .fixed nb) (hr : nb ≤ 1 ∨ p.recombination ≠ .smooth none) :
    (∃ m, train env (fuel + 1) p nx data = .ok m) ↔ ∃ g, makeGmx env p nb p.recombination data = .ok g ∧
      ∀ c < env.nClusters g, (∃ e, findExpert env p nx c (rowsOf env nx data g c) = .ok e) ∧
        (1 < env.nClusters g → 3 ≤ (rowsOf env nx data g c).length ∧
          (p.regression.quadratic = true → nx + 2 ≤ 2 * (rowsOf env nx data g c).length)) := by
  have hno : ¬(p.recombination = .smooth none ∧ p.nClusters.isMulti = true) := by
    rintro ⟨h4, h5⟩
    rw [hn] at h5
    simp only [NbClusters.isMulti, decide_eq_true_eq] at h5
    rcases hr with hr | hr
    · omega
    · exact hr h4
  have hcl : ∀ g : G, sortByCluster (env.nClusters g) data (data.map fun z => env.assign g (z.take nx)) =
      .ok ((List.range (env.nClusters g)).map fun c => rowsOf env nx data g c) := by
    intro g
    rw [C53_clusters _ _ _ (by simp)]
    simp only [cluster_rowsOf]
  have key : ∀ g : G, (∃ m, trainOnClusters env (fun p' => train env fuel p' nx data) p nx data g p.recombination =
      .ok m) ↔ ∀ c < env.nClusters g, (∃ e, findExpert env p nx c (rowsOf env nx data g c) = .ok e) ∧
        (1 < env.nClusters g → 3 ≤ (rowsOf env nx data g c).length ∧
          (p.regression.quadratic = true → nx + 2 ≤ 2 * (rowsOf env nx data g c).length)) := by
    intro g
    set cl := (List.range (env.nClusters g)).map fun c => rowsOf env nx data g c with hcldef
    have hlen : cl.length = env.nClusters g := by simp [hcldef]
    have h1 : (∃ m, trainOnClusters env (fun p' => train env fuel p' nx data) p nx data g p.recombination = .ok m) ↔
        checkNumberOfPoints (cl.map fun c => (⟨nx + 1, c⟩ : Mat R)) nx p.regression = .ok () ∧
          ∃ es, trainExperts env p nx cl.length 0 cl = .ok es := by
      unfold trainOnClusters
      simp only [bindF_ok, liftP_ok, liftE_ok, if_neg hno, hcl g]
      constructor
      · rintro ⟨m, c, hc, u, hu, es, hes, _⟩
        cases hc
        exact ⟨hu, es, hes⟩
      · rintro ⟨hu, es, hes⟩
        exact ⟨_, cl, rfl, (), hu, es, hes, rfl⟩
    have hmem : ∀ q : List (List R) → Prop, (∀ c ∈ cl, q c) ↔ ∀ c < env.nClusters g, q (rowsOf env nx data g c) := by
      intro q; simp [hcldef]
    rw [h1, trainExperts_exists]
    have hidx : (∀ i (hi : i < cl.length), (∃ e, findExpert env p nx (0 + i) cl[i] = .ok e) ∧
        (1 < cl.length → 3 ≤ cl[i].length)) ↔ ∀ c < env.nClusters g,
          (∃ e, findExpert env p nx c (rowsOf env nx data g c) = .ok e) ∧
            (1 < env.nClusters g → 3 ≤ (rowsOf env nx data g c).length) := by
      simp [hcldef]
    rw [hidx]
    constructor
    · rintro ⟨ha, hb⟩
      have h3 : 1 < cl.length → ∀ c ∈ cl, 3 ≤ c.length := fun hl =>
        (hmem _).2 fun c hc => (hb c hc).2 (by omega)
      have := (checkNumberOfPoints_rows cl p.regression h3).1 ha
      exact fun c hc => ⟨(hb c hc).1, fun hl => ⟨(hb c hc).2 hl, fun hq => (hmem _).1 (this (by omega) hq) c hc⟩⟩
    · intro h
      have h3 : 1 < cl.length → ∀ c ∈ cl, 3 ≤ c.length := fun hl =>
        (hmem _).2 fun c hc => ((h c hc).2 (by omega)).1
      exact ⟨(checkNumberOfPoints_rows cl p.regression h3).2 fun hl hq =>
        (hmem fun c => nx + 2 ≤ 2 * c.length).2 fun c hc => ((h c hc).2 (by omega)).2 hq,
        fun c hc => ⟨(h c hc).1, fun hl => ((h c hc).2 hl).1⟩⟩
  constructor
  · rintro ⟨m, h⟩
    obtain ⟨c, t, g, h1, h2, h3, h⟩ := train_succ.1 h
    simp only [resolve, hn, Except.ok.injEq] at h1
    subst h1
    simp only [gmmData, if_neg hno, Except.ok.injEq] at h2
    subst h2
    exact ⟨g, h3, (key g).1 ⟨m, h⟩⟩
  · rintro ⟨g, hg, h⟩
    obtain ⟨m, hm⟩ := (key g).2 h
    exact ⟨m, train_succ.2 ⟨(nb, p.recombination), data, g, by simp [resolve, hn], by simp [gmmData, if_neg hno], hg, hm⟩⟩

/-! ## C121: recombination -/

/-- For a given number of clusters, the recombination is the one asked, with the clusters fitted on all the data and
used with that factor (unless clusters are given). -/
theorem C121_as_asked {fuel nb : ℕ} {m : Mixture R G T E} (h : train env fuel p nx data = .ok m)
    (hn : p.nClusters = .fixed nb) (hr : nb ≤ 1 ∨ p.recombination ≠ .smooth none) :
    m.recombination = p.recombination ∧ (∀ g, p.gmx = some g → m.gmx = g) ∧
    (p.gmx = none → ∃ g, env.fitGmm nb data = .ok g ∧ m.gmx = env.scale g (match p.recombination with
      | .smooth (some f) => f
      | _ => 1)) := by
  cases fuel with
  | zero => simp [train] at h
  | succ fuel =>
    obtain ⟨c, t, g, h1, h2, h3, h⟩ := train_succ.1 h
    simp only [resolve, hn, Except.ok.injEq] at h1
    subst h1
    have hno : ¬(p.recombination = .smooth none ∧ p.nClusters.isMulti = true) := by
      rintro ⟨h4, h5⟩
      rw [hn] at h5
      simp only [NbClusters.isMulti, decide_eq_true_eq] at h5
      obtain h6 | h6 := hr
      · omega
      · exact h6 h4
    simp only [gmmData, if_neg hno, Except.ok.injEq] at h2
    subst h2
    obtain ⟨es, _, h4, _⟩ := trainOnClusters_ok h
    rw [h4 hno]
    refine ⟨rfl, fun g' hg => ?_, fun hg => ?_⟩
    · simpa [makeGmx, hg] using h3.symm
    · simp only [makeGmx, hg, bindF_ok, liftE_ok, Except.ok.injEq] at h3
      obtain ⟨g', h5, rfl⟩ := h3
      refine ⟨g', h5, ?_⟩
      obtain h6 | ⟨_ | f, h6⟩ : p.recombination = .hard ∨ ∃ f, p.recombination = .smooth f := by
        cases p.recombination <;> simp
      all_goals rw [h6]; rfl

theorem factor_range {hard : Bool} {n : NbClusters} {err : ℚ → Flt} {f : ℚ}
    (h : optimizeHeavisideFactor hard n err = .ok f) : f = 1 ∨ ∃ k < 20, f = 1 / 10 + (k : ℕ) * (2 / 19) := by
  unfold optimizeHeavisideFactor at h
  split_ifs at h with hc
  · left
    simpa using h.symm
  · rw [bind_ok] at h
    obtain ⟨i, hi, h⟩ := h
    rw [bind_ok] at h
    obtain ⟨mx, _, h⟩ := h
    unfold chooseFactor at h
    split_ifs at h
    · left
      simpa using h.symm
    · right
      rw [row_ok] at h
      have hi : i < 20 := by
        by_contra hc
        rw [List.getElem?_eq_none (by simpa [scaleFactors] using hc)] at h
        simp at h
      refine ⟨i, hi, ?_⟩
      simpa [scaleFactors, hi] using h.symm

/-- Smooth recombination of several clusters without factor: the mixture returned has a factor, which is 1 or a
candidate, and is trained again on all the data with that factor. -/
theorem C121_factor_partial {fuel nb : ℕ} {m : Mixture R G T E} (h : train env fuel p nx data = .ok m)
    (hn : p.nClusters = .fixed nb) (h1 : 1 < nb) (hr : p.recombination = .smooth none) :
    ∃ f, m.recombination = .smooth (some f) ∧ (f = 1 ∨ ∃ k < 20, f = 1 / 10 + (k : ℕ) * (2 / 19)) ∧
      (∀ g, p.gmx = some g → m.gmx = g) ∧
      (p.gmx = none → ∃ n g, env.fitGmm n data = .ok g ∧ m.gmx = env.scale g f) := by
  cases fuel with
  | zero => simp [train] at h
  | succ fuel =>
    obtain ⟨c, t, g, h2, h3, h4, h⟩ := train_succ.1 h
    simp only [resolve, hn, Except.ok.injEq] at h2
    subst h2
    obtain ⟨es, _, _, h5⟩ := trainOnClusters_ok h
    obtain ⟨test, tr, f, _, h6, _, h7⟩ := h5 ⟨hr, by simp [hn, NbClusters.isMulti, h1]⟩
    obtain ⟨h8, h9, h10⟩ := C121_as_asked (nb := env.nClusters g) h7 rfl (Or.inr (by simp))
    refine ⟨f, h8, factor_range h6, h9, fun hg => ?_⟩
    obtain ⟨g', h11, h12⟩ := h10 hg
    exact ⟨_, g', h11, h12⟩

/-- The factor is not validated on points unknown to the experts: each validation point is in the data on which the
expert of its cluster was trained. Only the Gaussian mixture is fitted without the validation points. -/
theorem C121_refuted_validation {fuel nb : ℕ} {m : Mixture R G T E} (h : train env fuel p nx data = .ok m)
    (hn : p.nClusters = .fixed nb) (h1 : 1 < nb) (hr : p.recombination = .smooth none) :
    ∃ g es test train f, extractPart data 5 = .ok (test, train) ∧ Sound env p nx data g es ∧
      optimizeHeavisideFactor false (.fixed nb) (fun f => env.error es g f test) = .ok f ∧
      m.recombination = .smooth (some f) ∧
      (p.gmx = none → ∃ g₀, env.fitGmm nb train = .ok g₀ ∧ g = env.scale g₀ 1) ∧
      ∀ z ∈ test, z ∈ rowsOf env nx data g (env.assign g (z.take nx)) := by
  cases fuel with
  | zero => simp [train] at h
  | succ fuel =>
    obtain ⟨c, t, g, h2, h3, h4, h⟩ := train_succ.1 h
    simp only [resolve, hn, Except.ok.injEq] at h2
    subst h2
    obtain ⟨es, hs, _, h5⟩ := trainOnClusters_ok h
    obtain ⟨test, tr, f, h6, h7, _, h8⟩ := h5 ⟨hr, by simp [hn, NbClusters.isMulti, h1]⟩
    rw [hr, hn] at h7
    refine ⟨g, es, test, tr, f, h6, hs, by simpa using h7, ?_, fun hg => ?_, fun z hz => ?_⟩
    · exact (C121_as_asked (nb := env.nClusters g) h8 rfl (Or.inr (by simp))).1
    · have hm : p.recombination = .smooth none ∧ p.nClusters.isMulti = true :=
        ⟨hr, by simp [hn, NbClusters.isMulti, h1]⟩
      simp only [gmmData, if_pos hm, bindF_ok, liftP_ok, Except.ok.injEq] at h3
      obtain ⟨parts, h9, rfl⟩ := h3
      rw [h6, Except.ok.injEq] at h9
      subst h9
      simp only [makeGmx, hg, bindF_ok, liftE_ok, Except.ok.injEq] at h4
      obtain ⟨g₀, h10, rfl⟩ := h4
      exact ⟨g₀, h10, by rw [hr]; rfl⟩
    · obtain ⟨test', tr', h9, _, h10, _⟩ := C54_partition data 5 (by norm_num)
      rw [h6, Except.ok.injEq, Prod.mk.injEq] at h9
      unfold rowsOf
      rw [List.mem_filter]
      exact ⟨(h9.1 ▸ h10).subset hz, by simp⟩

/-- With an automatic number of clusters the recombination asked is ignored and a smooth one has no factor: the clusters
are used with factor 1, whatever the errors at validation points. -/
theorem C121_refuted_auto {fuel : ℕ} {max : Option ℕ} {m : Mixture R G T E} (h : train env fuel p nx data = .ok m)
    (hn : p.nClusters = .auto max) :
    ∃ n r, findBestNumberOfClusters (env.tries data) data.length (max.getD (data.length / 10 + 1)) = .ok (n, r) ∧
      m.recombination = (match r with
        | .hard => .hard
        | .smoothNone => .smooth none) ∧
      (p.gmx = none → ∃ g, env.fitGmm n data = .ok g ∧ m.gmx = env.scale g 1) := by
  cases fuel with
  | zero => simp [train] at h
  | succ fuel =>
    obtain ⟨c, t, g, h1, h2, h3, h⟩ := train_succ.1 h
    simp only [resolve, hn, bindF_ok, liftP_ok, Except.ok.injEq] at h1
    obtain ⟨⟨n, r⟩, h4, rfl⟩ := h1
    have hno : ¬(ofRecomb r = .smooth none ∧ p.nClusters.isMulti = true) := by
      simp [hn, NbClusters.isMulti]
    simp only [gmmData, if_neg hno, Except.ok.injEq] at h2
    subst h2
    obtain ⟨es, _, h5, _⟩ := trainOnClusters_ok h
    rw [h5 hno]
    refine ⟨n, r, h4, by cases r <;> rfl, fun hg => ?_⟩
    simp only [makeGmx, hg, bindF_ok, liftE_ok, Except.ok.injEq] at h3
    obtain ⟨g', h6, rfl⟩ := h3
    exact ⟨g', h6, by cases r <;> rfl⟩

/-! ## Cases -/

/-- Clusters are the signs of the first variable, experts remember their data. -/
def toy : Env ℚ (ℕ × ℚ) Unit (List (List ℚ)) where
  fitGmm n _ := .ok (n, 1)
  scale g f := (g.1, f)
  nClusters g := g.1
  assign g x := if x.headD 0 < 0 ∨ g.1 = 1 then 0 else 1
  tries _ _ := .gmmFailed
  cv _ _ _ := .ok (.fin 0)
  fit _ _ _ _ rows := .ok rows
  predict e x := ((e.find? fun z => z.take 1 == x).bind List.getLast?).getD 0
  error _ _ f _ := .fin |f - 1|

/-- Two clusters, one tuning for both. -/
def toyParams (r : Recombination) : Params (ℕ × ℚ) Unit where
  gpType := .full
  nClusters := .fixed 2
  recombination := r
  regression := ⟨true, true, false⟩
  correlation := ⟨true, false, false, false⟩
  tunings := [()]
  kplsDim := none
  gmx := none

def toyData : List (List ℚ) := [[-3, 1], [-2, 5], [3, 7], [-1, 2], [1, 4], [2, 6]]

/-- A case of the theorems: training twice to find the factor. -/
example : (train toy 2 (toyParams (.smooth none)) 1 toyData).map (fun m => (m.recombination, m.experts, m.gmx)) =
    .ok (.smooth (some (1 / 10 + 9 * (2 / 19))), [[[-3, 1], [-2, 5], [-1, 2]], [[3, 7], [1, 4], [2, 6]]],
      (2, 1 / 10 + 9 * (2 / 19))) := by decide +kernel

/-- A case of `C120_hard_interpolates`. -/
example : (train toy 1 (toyParams .hard) 1 toyData).map (fun m => toyData.map fun z => predictHard toy m (z.take 1)) =
    .ok [.ok 1, .ok 5, .ok 7, .ok 2, .ok 4, .ok 6] := by decide +kernel

end Verif.Props
