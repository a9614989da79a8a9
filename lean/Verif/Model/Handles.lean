import Mathlib.Data.Fintype.Card
import Mathlib.Data.List.Basic
import Mathlib.Logic.Function.Basic

/-!
# Model of the solver registry of the Houdini plugin

The plugin keeps its solvers in one table that all threads share, and hands out ids. This is the code that the C++ side
calls: `get_solver`, `register_new_solver`, `step`, `clear_solver_registry` of `softy-hdk/src/lib.rs`, and what they call
in `softy-hdk/src/api.rs`.

Any number of threads make calls. A call is cut into the pieces between which other threads can run: each piece that
holds the lock of the registry is one action, since the lock excludes other threads. A panic ends the process: these
functions are called through `cxx`, which aborts when Rust code panics.

A solver is known by the order of its creation. What solvers do is given by `Solvers`: the parts of it are the subject of
other models. Not modelled: interrupters, which each step replaces; the text of messages; boxes without a solver, with
which `step` does nothing but report an error.
-/

namespace Softy.Handles

/-- `lib.rs:382-388`, `validate_id`: `id as u32` keeps the lowest 32 bits. -/
def validateId (id : ℤ) : Option ℕ :=
  if id = id % 2 ^ 32 then some (id % 2 ^ 32).toNat else none

/-- The errors of `update_vertices` that `api.rs:568-580` tells apart. -/
inductive UpdateError
  | sizeMismatch
  | attrib
  | other
  deriving DecidableEq

/-- `hdkrs::interop::CookResult`, without its message. -/
inductive Cook
  | success
  | warning
  | error
  deriving DecidableEq

/-- What solvers do: `build` of `api.rs:476-525`, up to the lock of the registry, and the trait `Solver` of
`api/solver.rs:10-18`. -/
structure Solvers (Mesh Params Pts σ : Type*) where
  build : Mesh → Params → Option σ
  update : σ → Pts → σ × Option UpdateError
  solve : σ → σ × Cook
  mesh : σ → Mesh

variable {Mesh Params Pts σ : Type*}

/-- `api.rs:556-585`, `step`, for a solver whose lock is held. -/
def apiStep (S : Solvers Mesh Params Pts σ) (s : σ) : Option Pts → σ × Option Mesh × Cook
  | none => ((S.solve s).1, some (S.mesh (S.solve s).1), (S.solve s).2)
  | some p =>
    match S.update s p with
    | (s', some .attrib) => (s', none, .warning)
    | (s', some _) => (s', none, .error)
    | (s', none) => ((S.solve s').1, some (S.mesh (S.solve s').1), (S.solve s').2)

/-- The outcome of the search for an unused key, with the last value of `key_counter`. -/
inductive Search
  | vacant (key : ℕ)
  | full (key : ℕ)
  | overflow
  deriving DecidableEq

/-- The loop at `api.rs:533-543`. `left` is what `counter` lacks to `2 ^ 32`: it wraps to zero when `left` gets there.
`checked` says that the build checks for overflows (as debug builds do): then either addition panics. -/
def search (checked : Bool) (keys : List ℕ) : ℕ → ℕ → Search
  | 0, key => .full key
  | left + 1, key =>
    if checked = true ∧ (key + 1 = 2 ^ 32 ∨ left = 0) then .overflow
    else if (key + 1) % 2 ^ 32 ∉ keys then .vacant ((key + 1) % 2 ^ 32)
    else if left = 0 then .full ((key + 1) % 2 ^ 32)
    else search checked keys left ((key + 1) % 2 ^ 32)

/-- Where a thread is in its call. -/
inductive Pc (Mesh Params Pts : Type*)
  /-- In no call. -/
  | idle
  /-- In `api.rs:468-525`, before the solver is built. `get` says that the call is `get_solver` of `lib.rs`, and not
  `register_new_solver`. -/
  | building (get : Bool) (mesh : Option Mesh) (params : Params)
  /-- Before `api.rs:527`, with a solver. -/
  | inserting (get : Bool) (o : ℕ) (mesh : Mesh) (params : Params)
  /-- Before `lib.rs:436`. -/
  | checking (key o : ℕ)
  /-- In `lib.rs:464-466`, with the lock of the solver. -/
  | stepping (o : ℕ) (pts : Option Pts)

/-- Whether a thread has a reference to the solver `o`. -/
def Pc.holds : Pc Mesh Params Pts → ℕ → Bool
  | .idle, _ => false
  | .building _ _ _, _ => false
  | .inserting _ o' _ _, o => o' = o
  | .checking _ o', o => o' = o
  | .stepping o' _, o => o' = o

/-- Why there is no solver (`api.rs:49-62`). -/
inductive Failure
  | missing
  | create
  | full
  deriving DecidableEq

/-- What can be seen. Solvers are numbered in the order in which they are built. -/
inductive Ev (n : ℕ) (Mesh Params Pts : Type*)
  /-- Thread `t` entered a new solver under a key. -/
  | created (t : Fin n) (key o : ℕ) (mesh : Mesh) (params : Params)
  /-- Thread `t` asked for a key and found the solver `o`. -/
  | found (t : Fin n) (key o : ℕ)
  /-- A call returned an id; for `get_solver`, with the solver. -/
  | returned (t : Fin n) (id : ℤ) (o : ℕ)
  /-- A call returned the id `-1`. -/
  | failed (t : Fin n) (why : Failure)
  /-- All solvers were deleted. -/
  | cleared
  /-- A call to `step` began. -/
  | began (t : Fin n) (o : ℕ)
  /-- A call to `step` ended. -/
  | stepped (t : Fin n) (o : ℕ) (pts : Option Pts) (out : Option Mesh × Cook)
  /-- A call to `step` found the solver locked. -/
  | busy (t : Fin n) (o : ℕ)
  /-- The process ended by a panic. -/
  | aborted (t : Fin n)

/-- The state of the process. `counter` and `table` are `SolverRegistry` (`api.rs:30-46`), `heap` has the state of every
solver with whether its lock is held, `boxes` the solvers of the `SoftySolver` values that the C++ side has. -/
structure World (n : ℕ) (Mesh Params Pts σ : Type*) where
  counter : ℕ
  table : List (ℕ × ℕ)
  heap : List (σ × Bool)
  boxes : List ℕ
  pcs : Fin n → Pc Mesh Params Pts
  log : List (Ev n Mesh Params Pts)
  dead : Bool

/-- `api.rs:39-46`. -/
def initial (n : ℕ) (Mesh Params Pts σ : Type*) : World n Mesh Params Pts σ :=
  ⟨0, [], [], [], fun _ => .idle, [], false⟩

/-- What a thread does next. -/
inductive Act (n : ℕ) (Mesh Params Pts : Type*)
  | get (t : Fin n) (id : ℤ) (mesh : Option Mesh) (params : Params)
  | register (t : Fin n) (mesh : Option Mesh) (params : Params)
  | build (t : Fin n)
  | insert (t : Fin n)
  | check (t : Fin n)
  | clear (t : Fin n)
  | beginStep (t : Fin n) (o : ℕ) (pts : Option Pts)
  | endStep (t : Fin n)
  | drop (o : ℕ)

variable {n : ℕ}

/-- `Arc::strong_count` of a solver: the references of the table, of the boxes and of the threads. -/
def strong (w : World n Mesh Params Pts σ) (o : ℕ) : ℕ :=
  (w.table.filter fun e => e.2 = o).length + w.boxes.count o +
    (Finset.univ.filter fun t => (w.pcs t).holds o = true).card

/-- Thread `t` goes on at `pc`. -/
def World.goto (w : World n Mesh Params Pts σ) (t : Fin n) (pc : Pc Mesh Params Pts) : World n Mesh Params Pts σ :=
  { w with pcs := Function.update w.pcs t pc }

/-- An event happens. -/
def World.emit (w : World n Mesh Params Pts σ) (e : Ev n Mesh Params Pts) : World n Mesh Params Pts σ :=
  { w with log := w.log ++ [e] }

/-- `lib.rs:433-449` and `api.rs:64-84`, `get_solver`: the look at the table. -/
def doGet (w : World n Mesh Params Pts σ) (t : Fin n) (id : ℤ) (mesh : Option Mesh) (params : Params) :
    World n Mesh Params Pts σ :=
  match validateId id with
  | none => w.goto t (.building true mesh params)
  | some key =>
    match w.table.lookup key with
    | none => w.goto t (.building true mesh params)
    | some o => (w.goto t (.checking key o)).emit (.found t key o)

/-- `api.rs:468-525`, `register_new_solver`, up to the lock. -/
def doBuild (S : Solvers Mesh Params Pts σ) (w : World n Mesh Params Pts σ) (t : Fin n) (get : Bool) :
    Option Mesh → Params → World n Mesh Params Pts σ
  | none, _ => (w.goto t .idle).emit (.failed t .missing)
  | some m, p =>
    match S.build m p with
    | none => (w.goto t .idle).emit (.failed t .create)
    | some s => { w.goto t (.inserting get w.heap.length m p) with heap := w.heap ++ [(s, false)] }

/-- `api.rs:527-552`, the rest of `register_new_solver`, and `lib.rs:368-379` when that was called from the C++ side: then
the reference to the solver is dropped and the id returned. -/
def doInsert (checked : Bool) (w : World n Mesh Params Pts σ) (t : Fin n) (get : Bool) (o : ℕ) (m : Mesh)
    (p : Params) : World n Mesh Params Pts σ :=
  match search checked (w.table.map Prod.fst) (2 ^ 32) w.counter with
  | .vacant key =>
    if get = true then
      ({ w.goto t (.checking key o) with counter := key, table := (key, o) :: w.table }).emit (.created t key o m p)
    else
      (({ w.goto t .idle with counter := key, table := (key, o) :: w.table }).emit (.created t key o m p)).emit
        (.returned t key o)
  | .full key => ({ w.goto t .idle with counter := key }).emit (.failed t .full)
  | .overflow => ({ w with dead := true }).emit (.aborted t)

/-- `lib.rs:435-442`: the assertion and the return of the box. -/
def doCheck (w : World n Mesh Params Pts σ) (t : Fin n) (key o : ℕ) : World n Mesh Params Pts σ :=
  if strong w o = 1 then ({ w with dead := true }).emit (.aborted t)
  else ({ w.goto t .idle with boxes := o :: w.boxes }).emit (.returned t key o)

/-- `api.rs:589-596`, `clear_solver_registry`. -/
def doClear (w : World n Mesh Params Pts σ) : World n Mesh Params Pts σ :=
  ({ w with counter := 0, table := [] }).emit .cleared

/-- `lib.rs:457-471`, `step`, up to `try_lock`. The call takes the box. -/
def doBegin (w : World n Mesh Params Pts σ) (t : Fin n) (o : ℕ) (pts : Option Pts) : World n Mesh Params Pts σ :=
  match w.heap[o]? with
  | some (s, false) =>
    ({ w.goto t (.stepping o pts) with boxes := w.boxes.erase o, heap := w.heap.set o (s, true) }).emit (.began t o)
  | some (_, true) => ({ w with boxes := w.boxes.erase o }).emit (.busy t o)
  | none => w

/-- `lib.rs:464-466` and `479-491`, the rest of `step`: the solver makes its step and is unlocked. -/
def doEnd (S : Solvers Mesh Params Pts σ) (w : World n Mesh Params Pts σ) (t : Fin n) (o : ℕ) (pts : Option Pts) :
    World n Mesh Params Pts σ :=
  match w.heap[o]? with
  | some (s, _) =>
    ({ w.goto t .idle with heap := w.heap.set o ((apiStep S s pts).1, false) }).emit
      (.stepped t o pts (apiStep S s pts).2)
  | none => w

/-- One action. An action that is not possible does nothing. -/
def step (S : Solvers Mesh Params Pts σ) (checked : Bool) (w : World n Mesh Params Pts σ)
    (a : Act n Mesh Params Pts) : World n Mesh Params Pts σ :=
  if w.dead = true then w
  else
    match a with
    | .get t id mesh params =>
      match w.pcs t with
      | .idle => doGet w t id mesh params
      | _ => w
    | .register t mesh params =>
      match w.pcs t with
      | .idle => w.goto t (.building false mesh params)
      | _ => w
    | .build t =>
      match w.pcs t with
      | .building get mesh params => doBuild S w t get mesh params
      | _ => w
    | .insert t =>
      match w.pcs t with
      | .inserting get o m p => doInsert checked w t get o m p
      | _ => w
    | .check t =>
      match w.pcs t with
      | .checking key o => doCheck w t key o
      | _ => w
    | .clear t =>
      match w.pcs t with
      | .idle => doClear w
      | _ => w
    | .beginStep t o pts =>
      match w.pcs t with
      | .idle => if o ∈ w.boxes then doBegin w t o pts else w
      | _ => w
    | .endStep t =>
      match w.pcs t with
      | .stepping o pts => doEnd S w t o pts
      | _ => w
    | .drop o => { w with boxes := w.boxes.erase o }

/-- The process after a schedule of actions. -/
def run (n : ℕ) (S : Solvers Mesh Params Pts σ) (checked : Bool) (acts : List (Act n Mesh Params Pts)) :
    World n Mesh Params Pts σ :=
  acts.foldl (step S checked) (initial n Mesh Params Pts σ)

end Softy.Handles
