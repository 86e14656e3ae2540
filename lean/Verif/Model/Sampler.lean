import Verif.Core.PyM

/-!
# Model of `sampler.py`, class `SampleCollector`

Dictionaries are objects: the heap maps references to their contents, and a sampler may change any of them.  What
the samplers do is a parameter.
-/

namespace QS.Sampling

open PyM

/-- Contents of a dictionary with string keys. -/
abbrev Dict (V : Type) := String → Option V

/-- What samplers can see and change: the dictionaries, the file system (existing directories, contents of the
files that `np.save` wrote) and a state of their own. -/
structure Env (W V : Type) where
  heap : ℕ → Dict V
  dirs : String → Bool
  files : String → Option (Dict V)
  own : W

/-- An object with the two methods of `Sampler` (`sampler.py` 88-103); `dump` takes and returns a reference to a
dictionary. -/
structure Sampler (S W V : Type) where
  sample : S → PyM (Env W V) Unit
  dump : ℕ → PyM (Env W V) ℕ

/-- A call of a method of the sampler with the given position. -/
inductive Call (S : Type)
  | sample (k : ℕ) (step : S)
  | dump (k : ℕ) (samples : ℕ)

/-- A `SampleCollector` with all that it can reach; `trace` (not in the code) records the calls of methods of the
samplers.  `samples` is the reference `self.samples`.  The samplers are those that iteration over
`self.samplers` yields (`sampler.py` 21-24 keeps lists, tuples and sets and makes a list of every other
iterable); the class name is that of the object. -/
structure Collector (S W V : Type) where
  samplers : List (Sampler S W V)
  samples : ℕ
  className : String
  env : Env W V
  trace : List (Call S)

variable {S W V : Type}

/-- `SampleCollector.__init__(samplers, np)` (`sampler.py` 18-25): `fresh` is the reference of the new
dictionary. -/
def init (samplers : List (Sampler S W V)) (fresh : ℕ) (className : String) (env : Env W V) : Collector S W V :=
  { samplers := samplers, samples := fresh, className := className
    env := { env with heap := fun r => if r = fresh then fun _ => none else env.heap r }, trace := [] }

/-- A computation on the environment. -/
def onEnv {α : Type} (m : PyM (Env W V) α) : PyM (Collector S W V) α := fun c =>
  ((m.run c.env).1, { c with env := (m.run c.env).2 })

/-- Record a call. -/
def record (x : Call S) : PyM (Collector S W V) Unit := modify fun c => { c with trace := c.trace ++ [x] }

/-- The loop `for sampler in self.samplers: sampler.sample(step)` (`sampler.py` 36-37) from position `k` on. -/
def sampleLoop (step : S) : ℕ → List (Sampler S W V) → PyM (Collector S W V) Unit
  | _, [] => pure ()
  | k, x :: xs => do
    record (.sample k step)
    onEnv (x.sample step)
    sampleLoop step (k + 1) xs

/-- `SampleCollector.sample(step)` (`sampler.py` 27-37). -/
def sample (step : S) : PyM (Collector S W V) Unit := do
  let self ← PyM.get
  sampleLoop step 0 self.samplers

/-- The loop `for sampler in self.samplers: self.samples = sampler.dump(self.samples)` (`sampler.py` 65-66). -/
def dumpLoop : ℕ → List (Sampler S W V) → PyM (Collector S W V) Unit
  | _, [] => pure ()
  | k, x :: xs => do
    let self ← PyM.get
    record (.dump k self.samples)
    let r ← onEnv (x.dump self.samples)
    modify fun self => { self with samples := r }
    dumpLoop (k + 1) xs

/-- `os.makedirs(path, exist_ok=exist_ok)`; parents and failures other than an existing path are left out. -/
def makedirs (path : String) (existOk : Bool) : PyM (Env W V) Unit := do
  let e ← PyM.get
  if e.dirs path && !existOk then raise .os
  else modify fun e => { e with dirs := fun p => if p = path then true else e.dirs p }

/-- `np.save(filename, samples)`: pickles the contents of the dictionary; `.npy` is appended by NumPy unless the name
has that ending already. -/
def npSave (filename : String) (samples : ℕ) : PyM (Env W V) Unit :=
  modify fun e =>
    let name := if filename.endsWith ".npy" then filename else filename ++ ".npy"
    { e with files := fun p => if p = name then some (e.heap samples) else e.files p }

/-- `os.path.join(a, b)` on POSIX. -/
def pathJoin (a b : String) : String :=
  if b.startsWith "/" then b else if a = "" ∨ a.endsWith "/" then a ++ b else a ++ "/" ++ b

/-- `SampleCollector.dump(path, filename, exist_ok, save_samples)` (`sampler.py` 39-79). -/
def dump (path : String := "dump") (filename : Option String := none) (existOk saveSamples : Bool := true) :
    PyM (Collector S W V) ℕ := do
  let self ← PyM.get
  dumpLoop 0 self.samplers
  let self ← PyM.get
  if !saveSamples then pure self.samples
  else
    let filename := filename.getD ("tmp_" ++ self.className ++ ".samples")
    onEnv (makedirs path existOk)
    onEnv (npSave (pathJoin path filename) self.samples)
    pure self.samples

/-- `SampleCollector.add_sample(key, sample)` (`sampler.py` 81-82). -/
def addSample (key : String) (value : V) : PyM (Collector S W V) Unit :=
  modify fun c => { c with env := { c.env with heap := fun r =>
    if r = c.samples then (fun k => if k = key then some value else c.env.heap r k) else c.env.heap r } }

/-- `SampleCollector.get_samples()` (`sampler.py` 84-85). -/
def getSamples : PyM (Collector S W V) ℕ := do
  let self ← PyM.get
  pure self.samples

/-- A call of a method of the collector by the user. -/
inductive Op (S V : Type)
  | sample (step : S)
  | dump (path : String) (filename : Option String) (existOk saveSamples : Bool)
  | addSample (key : String) (value : V)
  | getSamples

/-- What the call does to the state (an exception is caught by the user, who goes on with the object). -/
def Op.apply (c : Collector S W V) : Op S V → Collector S W V
  | .sample step => ((Sampling.sample step).run c).2
  | .dump path filename existOk saveSamples => ((Sampling.dump path filename existOk saveSamples).run c).2
  | .addSample key value => ((Sampling.addSample key value).run c).2
  | .getSamples => (Sampling.getSamples.run c).2

end QS.Sampling
