import Verif.Props.Train
import Mathlib.Data.List.Perm.Subperm

/-!
# C144: clusterings kept between iterations
-/

set_option autoImplicit false

namespace Verif.Props

open Verif Spec Moe Train

variable {R G T E : Type} {env : Env R G T E} {p q : Params G T} {nx : ℕ} {data data' : List (List R)}

/-- The inputs of `data` are among those of `data'`, with their multiplicities; outputs may differ. -/
def SomeOfInputs (nx : ℕ) (data data' : List (List R)) : Prop :=
  (data.map fun z => z.take nx).Subperm (data'.map fun z => z.take nx)

/-- `train_on_clusters` with a given clustering (`moe/src/algorithm.rs:144-205`); a factor left to choose would start a
training of its own (lines 187-193). -/
def trainWith (env : Env R G T E) (q : Params G T) (nx : ℕ) (data : List (List R)) (g : G) (r : Recombination) :
    Except Fail (Mixture R G T E) :=
  trainOnClusters env (fun p' => train env 1 p' nx data) q nx data g r

/-- The optimizer trains with the clustering of an earlier model (`ego/src/solver/solver_impl.rs:213-249`), a pair of a
mixture of Gaussians and a recombination. -/
def retrain (env : Env R G T E) (q : Params G T) (nx : ℕ) (data : List (List R)) (m : Mixture R G T E) :
    Except Fail (Mixture R G T E) :=
  trainWith env q nx data m.gmx m.recombination

theorem rowsOf_length (g : G) (c : ℕ) : (rowsOf env nx data g c).length =
    ((data.map fun z => z.take nx).filter fun x => decide (env.assign g x = c)).length := by
  rw [List.filter_map, List.length_map]
  rfl

theorem rowsOf_length_le (h : SomeOfInputs nx data data') (g : G) (c : ℕ) :
    (rowsOf env nx data g c).length ≤ (rowsOf env nx data' g c).length := by
  rw [rowsOf_length, rowsOf_length]
  exact (h.filter _).length_le

/-- A clustering with enough points, whose factor has been chosen. -/
structure Usable (env : Env R G T E) (n : NbClusters) (rs : RegressionSpec) (nx : ℕ) (data : List (List R)) (g : G)
    (r : Recombination) : Prop where
  chosen : ¬(r = .smooth none ∧ n.isMulti = true)
  three : 1 < env.nClusters g → ∀ c < env.nClusters g, 3 ≤ (rowsOf env nx data g c).length
  quadratic : 1 < env.nClusters g → rs.quadratic = true → ∀ c < env.nClusters g,
    nx + 2 ≤ 2 * (rowsOf env nx data g c).length

theorem Usable.mono {n : NbClusters} {rs : RegressionSpec} {g : G} {r : Recombination} (h : Usable env n rs nx data g r)
    (hs : SomeOfInputs nx data data') : Usable env n rs nx data' g r :=
  ⟨h.chosen, fun h1 c hc => (h.three h1 c hc).trans (rowsOf_length_le hs g c),
    fun h1 h2 c hc => (h.quadratic h1 h2 c hc).trans (Nat.mul_le_mul_left _ (rowsOf_length_le hs g c))⟩

theorem sortByCluster_rows (g : G) : sortByCluster (env.nClusters g) data (data.map fun z => env.assign g (z.take nx)) =
    .ok ((List.range (env.nClusters g)).map fun c => rowsOf env nx data g c) := by
  rw [C53_clusters _ _ _ (by simp)]
  simp only [cluster_rowsOf]

theorem trainOnClusters_usable {again : Params G T → Except Fail (Mixture R G T E)} {g : G} {r : Recombination}
    {m : Mixture R G T E} (hr : ¬(r = .smooth none ∧ p.nClusters.isMulti = true))
    (h : trainOnClusters env again p nx data g r = .ok m) :
    Usable env p.nClusters p.regression nx data g r ∧ ∃ es, m = ⟨r, es, g, data, p⟩ := by
  obtain ⟨es, hs, h1, -⟩ := trainOnClusters_ok h
  refine ⟨⟨hr, hs.size, fun hn hq c hc => ?_⟩, es, h1 hr⟩
  unfold trainOnClusters at h
  simp only [bindF_ok, liftP_ok, liftE_ok, sortByCluster_rows] at h
  obtain ⟨cl, hcl, u, hu, -⟩ := h
  cases hcl
  have := (checkNumberOfPoints_rows _ _ ?_).1 hu (by simpa using hn) hq (rowsOf env nx data g c) (by simpa using ⟨c, hc, rfl⟩)
  · exact this
  · intro _ c' hc'
    obtain ⟨k, hk, rfl⟩ := List.mem_map.1 hc'
    exact hs.size hn k (List.mem_range.1 hk)

theorem train_usable {fuel : ℕ} {m : Mixture R G T E} (h : train env fuel p nx data = .ok m) :
    Usable env p.nClusters p.regression nx data m.gmx m.recombination := by
  cases fuel with
  | zero => simp [train] at h
  | succ fuel =>
    obtain ⟨c, t, g, -, -, -, h⟩ := train_succ.1 h
    by_cases hr : c.2 = .smooth none ∧ p.nClusters.isMulti = true
    · obtain ⟨es, hs, -, h2⟩ := trainOnClusters_ok h
      obtain ⟨test, tr, f, -, -, -, h5⟩ := h2 hr
      cases fuel with
      | zero => simp [train] at h5
      | succ fuel =>
        obtain ⟨c', t', g', hc', -, -, h6⟩ := train_succ.1 h5
        simp only [resolve, Except.ok.injEq] at hc'
        subst hc'
        obtain ⟨hu, es', rfl⟩ := trainOnClusters_usable (by simp) h6
        exact ⟨by simp, hu.three, hu.quadratic⟩
    · obtain ⟨hu, es, rfl⟩ := trainOnClusters_usable hr h
      exact hu

/-- Training with a usable clustering succeeds exactly when the expert of each cluster can be trained. -/
theorem usable_retrain {g : G} {r : Recombination} (h : Usable env q.nClusters q.regression nx data g r) :
    ((∃ m', trainWith env q nx data g r = .ok m') ↔
      ∀ c < env.nClusters g, ∃ e, findExpert env q nx c (rowsOf env nx data g c) = .ok e) ∧
    ∀ m', trainWith env q nx data g r = .ok m' → m'.gmx = g ∧ m'.recombination = r ∧ m'.data = data ∧
      Sound env q nx data g m'.experts := by
  refine ⟨?_, fun m' hm => ?_⟩
  · set cl := (List.range (env.nClusters g)).map fun c => rowsOf env nx data g c with hcl
    have hmem : ∀ c ∈ cl, ∃ k < env.nClusters g, c = rowsOf env nx data g k := fun c hc => by
      obtain ⟨k, hk, rfl⟩ := List.mem_map.1 hc
      exact ⟨k, List.mem_range.1 hk, rfl⟩
    have hlen : cl.length = env.nClusters g := by simp [hcl]
    have h3 : 1 < cl.length → ∀ c ∈ cl, 3 ≤ c.length := fun hl c hc => by
      obtain ⟨k, hk, rfl⟩ := hmem c hc
      exact h.three (hlen ▸ hl) k hk
    have hck : checkNumberOfPoints (cl.map fun c => (⟨nx + 1, c⟩ : Mat R)) nx q.regression = .ok () :=
      (checkNumberOfPoints_rows cl q.regression h3).2 fun hl hq c hc => by
        obtain ⟨k, hk, rfl⟩ := hmem c hc
        exact h.quadratic (hlen ▸ hl) hq k hk
    have h1 : (∃ m', trainWith env q nx data g r = .ok m') ↔ ∃ es, trainExperts env q nx cl.length 0 cl = .ok es := by
      unfold trainWith trainOnClusters
      simp only [bindF_ok, liftP_ok, liftE_ok, if_neg h.chosen, sortByCluster_rows]
      constructor
      · rintro ⟨m, c, hc, u, hu, es, hes, _⟩
        cases hc
        exact ⟨es, hes⟩
      · rintro ⟨es, hes⟩
        exact ⟨_, cl, rfl, (), hck, es, hes, rfl⟩
    rw [h1, trainExperts_exists]
    constructor
    · intro hall c hc
      have := (hall c (by rw [hlen]; exact hc)).1
      simpa [hcl] using this
    · intro hall i hi
      have hi' : i < env.nClusters g := hlen ▸ hi
      refine ⟨?_, fun hl => h3 hl _ (List.getElem_mem hi)⟩
      simpa [hcl] using hall i hi'
  · obtain ⟨es, hs, h1, -⟩ := trainOnClusters_ok hm
    rw [h1 h.chosen]
    exact ⟨rfl, rfl, rfl, hs⟩

/-- **C144**. A mixture trained on data, then trained again with its clusters on data containing the inputs, is never refused
because of the clusters: this succeeds exactly when the expert of each cluster can be trained. The result has the same
clusters and recombination, and one expert per cluster trained on all the points of the cluster. -/
theorem C144_retrain {fuel : ℕ} {m : Mixture R G T E} (h : train env fuel p nx data = .ok m)
    (hn : q.nClusters = p.nClusters) (hr : q.regression = p.regression) (hs : SomeOfInputs nx data data') :
    ((∃ m', retrain env q nx data' m = .ok m') ↔
      ∀ c < env.nClusters m.gmx, ∃ e, findExpert env q nx c (rowsOf env nx data' m.gmx c) = .ok e) ∧
    ∀ m', retrain env q nx data' m = .ok m' → m'.gmx = m.gmx ∧ m'.recombination = m.recombination ∧ m'.data = data' ∧
      Sound env q nx data' m.gmx m'.experts :=
  usable_retrain (by rw [hn, hr]; exact (train_usable h).mono hs)

/-- **C144**. Added points do not move the others: each cluster keeps its points, in the same order, before the added ones. -/
theorem C144_points_stay (env : Env R G T E) (nx : ℕ) (data added : List (List R)) (g : G) (c : ℕ) :
    rowsOf env nx (data ++ added) g c = rowsOf env nx data g c ++ rowsOf env nx added g c := by
  simp [rowsOf]

/-- Successive trainings, each on other data and with its own hyperparameter tunings: the iterations of the optimizer
between two clusterings (`ego/src/solver/solver_impl.rs:166-249`). -/
def retrainAll (env : Env R G T E) (nx : ℕ) (m : Mixture R G T E) :
    List (Params G T × List (List R)) → Except Fail (Mixture R G T E)
  | [] => .ok m
  | (q, data) :: l => do
    let m' ← retrain env q nx data m
    retrainAll env nx m' l

/-- **C144**. When the experts can be trained, any number of trainings with a kept clustering succeeds, whatever the points
added and taken back between them, as long as the inputs of the first training stay; clusters and recombination do not
change. -/
theorem C144_iterations {fuel : ℕ} {m : Mixture R G T E} (h : train env fuel p nx data = .ok m)
    (l : List (Params G T × List (List R)))
    (hl : ∀ s ∈ l, s.1.nClusters = p.nClusters ∧ s.1.regression = p.regression ∧ SomeOfInputs nx data s.2 ∧
      ∀ c < env.nClusters m.gmx, ∃ e, findExpert env s.1 nx c (rowsOf env nx s.2 m.gmx c) = .ok e) :
    ∃ m', retrainAll env nx m l = .ok m' ∧ m'.gmx = m.gmx ∧ m'.recombination = m.recombination ∧
      m'.experts.length = env.nClusters m.gmx := by
  have key : ∀ (l : List (Params G T × List (List R))) (m₁ : Mixture R G T E), m₁.gmx = m.gmx →
      m₁.recombination = m.recombination → m₁.experts.length = env.nClusters m.gmx →
      (∀ s ∈ l, s.1.nClusters = p.nClusters ∧ s.1.regression = p.regression ∧ SomeOfInputs nx data s.2 ∧
        ∀ c < env.nClusters m.gmx, ∃ e, findExpert env s.1 nx c (rowsOf env nx s.2 m.gmx c) = .ok e) →
      ∃ m', retrainAll env nx m₁ l = .ok m' ∧ m'.gmx = m.gmx ∧ m'.recombination = m.recombination ∧
        m'.experts.length = env.nClusters m.gmx := by
    intro l
    induction l with
    | nil => exact fun m₁ h1 h2 h3 _ => ⟨m₁, rfl, h1, h2, h3⟩
    | cons s l ih =>
      intro m₁ h1 h2 _ hall
      obtain ⟨a, b, c, d⟩ := hall s List.mem_cons_self
      obtain ⟨e1, e2⟩ := C144_retrain h a b c
      obtain ⟨m₂, hm₂⟩ := e1.2 d
      obtain ⟨f1, f2, -, f4⟩ := e2 m₂ hm₂
      obtain ⟨m', hm', g1, g2, g3⟩ := ih m₂ f1 f2 f4.count fun s' hs' => hall s' (List.mem_cons_of_mem _ hs')
      refine ⟨m', ?_, g1, g2, g3⟩
      rw [retrainAll]
      have : retrain env s.1 nx s.2 m₁ = .ok m₂ := by
        unfold retrain at hm₂ ⊢
        rw [h1, h2]
        exact hm₂
      rw [this]
      exact hm'
  exact key l m rfl rfl (C120_one_expert_per_cluster h).2.count hl

/-- A case: two clusters with a factor to choose, then one point added to the first cluster and one to the second. -/
example : ((train toy 2 (toyParams (.smooth none)) 1 toyData) >>= fun m =>
      retrainAll toy 1 m [(toyParams (.smooth none), toyData ++ [[-4, 0]]), (toyParams (.smooth none), toyData ++ [[5, 9]])]).map
      (fun m => (m.recombination, m.experts)) =
    .ok (.smooth (some (1 / 10 + 9 * (2 / 19))), [[[-3, 1], [-2, 5], [-1, 2]], [[3, 7], [1, 4], [2, 6], [5, 9]]]) := by
  decide +kernel

/-- Meets the hypothesis of `C144_retrain` on inputs, with another output. -/
example : SomeOfInputs 1 toyData ([[-3, 8], [4, 4]] ++ toyData.tail) := by
  unfold SomeOfInputs
  decide +kernel

/-- The hypothesis on inputs cannot be left out: without two points of its first cluster the clustering is refused. -/
example : ((train toy 2 (toyParams .hard) 1 toyData) >>= fun m =>
      retrain toy (toyParams .hard) 1 (toyData.drop 2) m).map (fun m => m.experts) = .error (.err .clustering) := by
  decide +kernel

end Verif.Props
