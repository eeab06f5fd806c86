import Mathlib.Data.Nat.Notation
import Mathlib.Logic.Function.Basic

/-!
# The shared generator of samplers

Model of the use of `Arc<RwLock<R>>` by `Lhs` and `Random` (`/repo/crates/doe/src/lhs.rs:35-335`,
`/repo/crates/doe/src/random.rs:12-75`): when the lock is taken and released, how many numbers are drawn meanwhile, and what
happens to the lock. What is computed from the numbers is a parameter (`Content`); it is modelled in `Model/Doe.lean`. The space has at least one dimension.
-/

set_option autoImplicit false

namespace Verif.Samplers

/-- The numbers given by a generator. -/
abbrev Numbers := ℕ → ℕ

/-- `std::sync::RwLock`, only ever locked for writing: poisoned when a thread panics with it, held for ever when a thread
loops with it. -/
inductive Lock where
  | free
  | poisoned
  | held
  deriving DecidableEq, Repr

/-- A generator behind its lock: how many numbers have been drawn. -/
structure Cell where
  pos : ℕ
  lock : Lock
  deriving DecidableEq, Repr

/-- A call of `sample`: what remains to do.
* `ret`: it returned;
* `fail`: it panicked;
* `poison`, `hang`: it panics or loops in a section which has the lock;
* `sec`: it takes the lock, draws as many numbers as it needs, and releases the lock. -/
inductive Prog (ρ : Type) where
  | ret (r : ρ)
  | fail
  | poison
  | hang
  | sec (used : Numbers → ℕ) (next : Numbers → Prog ρ)

variable {ρ ε : Type}

/-- The lock once a section ends. -/
def Prog.lockAfter : Prog ρ → Lock
  | .poison => .poisoned
  | .hang => .held
  | _ => .free

/-- The panic of a section is that of the call. -/
def Prog.settle : Prog ρ → Prog ρ
  | .poison => .fail
  | p => p

/-- Next section of a call: `self.rng.write().unwrap()` panics if the lock is poisoned, waits if it is held. `g`: all the
numbers of the generator. -/
def step (g : Numbers) (c : Cell) : Prog ρ → Cell × Prog ρ
  | .sec used next =>
    match c.lock with
    | .free =>
      let s := fun i => g (c.pos + i)
      (⟨c.pos + used s, (next s).lockAfter⟩, (next s).settle)
    | .poisoned => (c, .fail)
    | .held => (c, .sec used next)
  | p => (c, p)

/-- A call alone: all its sections. -/
def run (g : Numbers) : Cell → Prog ρ → Cell × Prog ρ
  | c, .sec used next =>
    match c.lock with
    | .free =>
      let s := fun i => g (c.pos + i)
      run g ⟨c.pos + used s, (next s).lockAfter⟩ (next s)
    | .poisoned => (c, .fail)
    | .held => (c, .sec used next)
  | c, .poison => (c, .fail)
  | c, p => (c, p)

/-! ## Calls in several threads -/

/-- The generator and the calls of the threads. -/
structure World (ρ : Type) where
  cell : Cell
  calls : ℕ → Prog ρ

/-- Thread `i` gets to run its next section. -/
def World.step (g : Numbers) (w : World ρ) (i : ℕ) : World ρ :=
  let r := Samplers.step g w.cell (w.calls i)
  ⟨r.1, Function.update w.calls i r.2⟩

/-- Any schedule of the threads. -/
def World.exec (g : Numbers) (w : World ρ) (schedule : List ℕ) : World ρ := schedule.foldl (World.step g) w

/-- The calls one after the other, in some order. -/
def World.inOrder (g : Numbers) (w : World ρ) (order : List ℕ) : World ρ :=
  order.foldl (fun w i => let r := run g w.cell (w.calls i); ⟨r.1, Function.update w.calls i r.2⟩) w

/-! ## The samplers -/

/-- `LhsKind` and `Random`. -/
inductive Kind where
  | random
  | classic
  | centered
  | maximin
  | centeredMaximin
  | optimized
  deriving DecidableEq, Repr

/-- What is computed from the numbers: how many are used, and the result. `swap`: the state of the evolutionary algorithm
after an inner iteration, or a panic (`lphip.argmin().unwrap()` on NaN). -/
structure Content (ρ ε : Type) where
  random : Numbers → ℕ × ρ
  classic : Numbers → ℕ × ρ
  centered : Numbers → ℕ × ρ
  /-- minimal distance -/
  spread : ρ → ℕ
  start : ρ → ε
  swap : ε → Numbers → ℕ × Option ε
  finish : ε → ρ

/-- `_maximin_lhs` (`lhs.rs:276-299`) after its first design: `n` more designs. -/
def maximinLoop (draw : Numbers → ℕ × ρ) (spread : ρ → ℕ) : ℕ → ρ → Prog ρ
  | 0, best => .ret best
  | n + 1, best => .sec (fun s => (draw s).1) fun s =>
      maximinLoop draw spread n (if spread best < spread (draw s).2 then (draw s).2 else best)

/-- `_maximin_ese` (`lhs.rs:120-185`): `n` inner iterations. The lock is taken at each of them (`lhs.rs:145`); choosing two
rows panics without rows and loops with one (`lhs.rs:193-197`). -/
def eseLoop (K : Content ρ ε) (ns : ℕ) : ℕ → ε → Prog ρ
  | 0, e => .ret (K.finish e)
  | n + 1, e => .sec (fun s => (K.swap e s).1) fun s =>
      if ns = 0 then .poison
      else if ns = 1 then .hang
      else match (K.swap e s).2 with
        | none => .poison
        | some e' => eseLoop K ns n e'

/-- Number of inner iterations in all (`lhs.rs:81-82`). -/
def eseIters (nx : ℕ) : ℕ := min (3 * nx / 2) 30 * min (20 * nx) 100

/-- `normalized_sample` (`lhs.rs:72-86`, `random.rs:67-71`). The smallest distance of fewer than two points panics
(`lhs.rs:282`), the lock being released. -/
def sample (K : Content ρ ε) (kind : Kind) (nx ns : ℕ) : Prog ρ :=
  match kind with
  | .random => .sec (fun s => (K.random s).1) fun s => .ret (K.random s).2
  | .classic => .sec (fun s => (K.classic s).1) fun s => .ret (K.classic s).2
  | .centered => .sec (fun s => (K.centered s).1) fun s => .ret (K.centered s).2
  | .maximin => .sec (fun s => (K.classic s).1) fun s =>
      if ns ≤ 1 then .fail else maximinLoop K.classic K.spread 4 (K.classic s).2
  | .centeredMaximin => .sec (fun s => (K.centered s).1) fun s =>
      if ns ≤ 1 then .fail else maximinLoop K.centered K.spread 4 (K.centered s).2
  | .optimized => .sec (fun s => (K.classic s).1) fun s => eseLoop K ns (eseIters nx) (K.start (K.classic s).2)

/-! ## Handles -/

/-- `Lhs` or `Random`: a kind, a dimension and a reference to a generator. -/
structure Sampler where
  kind : Kind
  nx : ℕ
  rng : ℕ
  deriving DecidableEq, Repr

/-- Generators in memory: their numbers and their cells. -/
structure Memory where
  size : ℕ
  numbers : ℕ → Numbers
  cells : ℕ → Cell

/-- `with_rng` (`lhs.rs:111-118`, `random.rs:53-59`): a new cell. -/
def Sampler.withRng (s : Sampler) (m : Memory) (g : Numbers) : Sampler × Memory :=
  ({ s with rng := m.size },
    ⟨m.size + 1, Function.update m.numbers m.size g, Function.update m.cells m.size ⟨0, .free⟩⟩)

/-- `kind` (`lhs.rs:105-109`). -/
def Sampler.setKind (s : Sampler) (k : Kind) : Sampler := { s with kind := k }

/-- `#[derive(Clone)]` (`lhs.rs:40`, `random.rs:14`): the `Arc` is cloned, not the generator. -/
def Sampler.clone (s : Sampler) : Sampler := ⟨s.kind, s.nx, s.rng⟩

/-- A call in a single thread. -/
def Sampler.call (K : Kind → ℕ → ℕ → Content ρ ε) (s : Sampler) (m : Memory) (ns : ℕ) : Prog ρ × Memory :=
  let r := run (m.numbers s.rng) (m.cells s.rng) (sample (K s.kind s.nx ns) s.kind s.nx ns)
  (r.2, { m with cells := Function.update m.cells s.rng r.1 })

end Verif.Samplers
