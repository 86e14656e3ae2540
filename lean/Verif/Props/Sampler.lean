import Verif.Model.Sampler

/-!
# Sample collection (C67)
-/

namespace QS.Props

open Sampling PyM

variable {S W V : Type}

/-! Specifications that do not mention the collector. -/

/-- `SampledBy step xs e e'`: the samplers `xs` sample one after the other, none raises, and the environment goes
from `e` to `e'`. -/
inductive SampledBy (step : S) : List (Sampler S W V) → Env W V → Env W V → Prop
  | nil (e) : SampledBy step [] e e
  | cons {x xs e e' e''} (h : (x.sample step).run e = (.ok (), e')) (t : SampledBy step xs e' e'') :
      SampledBy step (x :: xs) e e''

/-- `DumpedBy xs r e ins r' e'`: the dictionary `r` is passed through `dump` of the samplers one after the other and
none raises; `ins` are the dictionaries that they are given, `r'` is the one that the last returns. -/
inductive DumpedBy : List (Sampler S W V) → ℕ → Env W V → List ℕ → ℕ → Env W V → Prop
  | nil (r e) : DumpedBy [] r e [] r e
  | cons {x xs r e ins r' e' r'' e''} (h : (x.dump r).run e = (.ok r', e')) (t : DumpedBy xs r' e' ins r'' e'') :
      DumpedBy (x :: xs) r e (r :: ins) r'' e''

/-- The calls of `dump` of consecutive samplers from position `k` on. -/
def dumpCalls (S : Type) : ℕ → List ℕ → List (Call S)
  | _, [] => []
  | k, r :: rs => .dump k r :: dumpCalls S (k + 1) rs

/-- The calls of `sample` of `m` samplers from position `k` on. -/
def sampleCalls (step : S) : ℕ → ℕ → List (Call S)
  | _, 0 => []
  | k, m + 1 => .sample k step :: sampleCalls step (k + 1) m

theorem onEnv_run {α : Type} (m : PyM (Env W V) α) (c : Collector S W V) :
    (onEnv m).run c = ((m.run c.env).1, { c with env := (m.run c.env).2 }) := rfl

theorem sampleLoop_cons (step : S) (x : Sampler S W V) (xs : List (Sampler S W V)) (k : ℕ)
    (c : Collector S W V) :
    (sampleLoop step k (x :: xs)).run c = match (x.sample step).run c.env with
      | (.ok _, e) => (sampleLoop step (k + 1) xs).run
          { c with env := e, trace := c.trace ++ [.sample k step] }
      | (.error err, e) => (.error err, { c with env := e, trace := c.trace ++ [.sample k step] }) := by
  rw [sampleLoop, record, run_bind_ok (run_modify ..), PyM.run_bind]
  rw [onEnv_run]
  dsimp only
  rcases (x.sample step).run c.env with ⟨_ | _, e⟩ <;> rfl

theorem dumpLoop_cons (x : Sampler S W V) (xs : List (Sampler S W V)) (k : ℕ) (c : Collector S W V) :
    (dumpLoop k (x :: xs)).run c = match (x.dump c.samples).run c.env with
      | (.ok r, e) => (dumpLoop (k + 1) xs).run
          { c with env := e, samples := r, trace := c.trace ++ [.dump k c.samples] }
      | (.error err, e) => (.error err, { c with env := e, trace := c.trace ++ [.dump k c.samples] }) := by
  rw [dumpLoop, run_bind_ok (run_get _), record, run_bind_ok (run_modify ..), PyM.run_bind]
  rw [onEnv_run]
  dsimp only
  rcases (x.dump c.samples).run c.env with ⟨_ | _, e⟩ <;> rfl

theorem sampleLoop_ok {step : S} {xs : List (Sampler S W V)} {k : ℕ} {c c' : Collector S W V} :
    (sampleLoop step k xs).run c = (.ok (), c') ↔
      ∃ e, SampledBy step xs c.env e ∧
        c' = { c with env := e, trace := c.trace ++ sampleCalls step k xs.length } := by
  induction xs generalizing k c with
  | nil =>
    constructor
    · intro h
      simp only [sampleLoop, run_pure, Prod.mk.injEq, true_and] at h
      exact ⟨_, .nil _, by simp [← h, sampleCalls]⟩
    · rintro ⟨e, h, rfl⟩
      cases h
      simp [sampleLoop, sampleCalls]
  | cons x xs ih =>
    rw [sampleLoop_cons]
    constructor
    · intro h
      rcases hx : (x.sample step).run c.env with ⟨_ | _, e⟩
      · rw [hx] at h; cases h
      · rw [hx] at h
        obtain ⟨e', h1, h2⟩ := ih.mp h
        exact ⟨e', .cons hx h1, by rw [h2]; simp [sampleCalls]⟩
    · rintro ⟨e, h, rfl⟩
      cases h with
      | cons hx ht =>
        rw [hx]
        exact ih.mpr ⟨e, ht, by simp [sampleCalls]⟩

theorem dumpLoop_ok {xs : List (Sampler S W V)} {k : ℕ} {c c' : Collector S W V} :
    (dumpLoop k xs).run c = (.ok (), c') ↔
      ∃ ins r e, DumpedBy xs c.samples c.env ins r e ∧
        c' = { c with env := e, samples := r, trace := c.trace ++ dumpCalls S k ins } := by
  induction xs generalizing k c with
  | nil =>
    constructor
    · intro h
      simp only [dumpLoop, run_pure, Prod.mk.injEq, true_and] at h
      exact ⟨[], _, _, .nil _ _, by simp [← h, dumpCalls]⟩
    · rintro ⟨ins, r, e, h, rfl⟩
      cases h
      simp [dumpLoop, dumpCalls]
  | cons x xs ih =>
    rw [dumpLoop_cons]
    constructor
    · intro h
      rcases hx : (x.dump c.samples).run c.env with ⟨_ | r, e⟩
      · rw [hx] at h; cases h
      · rw [hx] at h
        obtain ⟨ins, r', e', h1, h2⟩ := ih.mp h
        exact ⟨_, r', e', .cons hx h1, by rw [h2]; simp [dumpCalls]⟩
    · rintro ⟨ins, r, e, h, rfl⟩
      cases h with
      | cons hx ht =>
        rw [hx]
        exact ih.mpr ⟨_, r, e, ht, by simp [dumpCalls]⟩

/-- **C67** `sample(step)` returns exactly if all samplers do when they sample one after the other; it has then
called `sample(step)` of every sampler once, in order, and changed nothing else. -/
theorem C67_sample {step : S} {c c' : Collector S W V} :
    (Sampling.sample step).run c = (.ok (), c') ↔
      ∃ e, SampledBy step c.samplers c.env e ∧
        c' = { c with env := e, trace := c.trace ++ sampleCalls step 0 c.samplers.length } := by
  unfold Sampling.sample
  rw [run_bind_ok (run_get _)]
  exact sampleLoop_ok

/-- **C67** If a sampler raises, the ones before it have sampled, it has been called, and the ones after it have
not been. -/
theorem C67_sample_raises {step : S} {c c' : Collector S W V} {err : PyErr}
    (h : (Sampling.sample step).run c = (.error err, c')) :
    ∃ xs x ys e e', c.samplers = xs ++ x :: ys ∧ SampledBy step xs c.env e ∧
      (x.sample step).run e = (.error err, e') ∧
      c' = { c with env := e', trace := c.trace ++ sampleCalls step 0 (xs.length + 1) } := by
  unfold Sampling.sample at h
  rw [run_bind_ok (run_get _)] at h
  have main : ∀ (zs : List (Sampler S W V)) (k : ℕ) (c : Collector S W V),
      (sampleLoop step k zs).run c = (.error err, c') →
      ∃ xs x ys e e', zs = xs ++ x :: ys ∧ SampledBy step xs c.env e ∧
      (x.sample step).run e = (.error err, e') ∧
      c' = { c with env := e', trace := c.trace ++ sampleCalls step k (xs.length + 1) } := by
    intro zs
    induction zs with
    | nil => intro k c h; cases h
    | cons z zs ih =>
      intro k c h
      rw [sampleLoop_cons] at h
      rcases hz : (z.sample step).run c.env with ⟨err' | _, e⟩
      · rw [hz] at h
        simp only [Prod.mk.injEq, Except.error.injEq] at h
        obtain ⟨rfl, rfl⟩ := h
        exact ⟨[], z, zs, _, e, rfl, .nil _, hz, by simp [sampleCalls]⟩
      · rw [hz] at h
        obtain ⟨xs, x, ys, e1, e', h1, h2, h3, h4⟩ := ih _ _ h
        exact ⟨z :: xs, x, ys, e1, e', by rw [h1]; rfl, .cons hz h2, h3, by
          rw [h4]; simp [sampleCalls]⟩
  exact main _ _ _ h

/-- **C67** `dump(…, save_samples=False)` returns exactly if all samplers do when the dictionary is passed through
them one after the other; the result is what the last one returns, `get_samples` returns the same, and nothing
happens besides the calls of the samplers: no file is written and no directory is made. -/
theorem C67_dump_unsaved {path : String} {filename : Option String} {existOk : Bool} {r : ℕ}
    {c c' : Collector S W V} :
    (Sampling.dump path filename existOk false).run c = (.ok r, c') ↔
      ∃ ins e, DumpedBy c.samplers c.samples c.env ins r e ∧
        c' = { c with env := e, samples := r, trace := c.trace ++ dumpCalls S 0 ins } := by
  unfold Sampling.dump
  rw [run_bind_ok (run_get _), run_bind_eq_ok]
  constructor
  · rintro ⟨⟨⟩, c1, h1, h2⟩
    rw [run_bind_ok (run_get _)] at h2
    simp only [Bool.not_false, if_true, run_pure, Prod.mk.injEq, Except.ok.injEq] at h2
    obtain ⟨h2, rfl⟩ := h2
    obtain ⟨ins, r', e, h3, h4⟩ := dumpLoop_ok.mp h1
    have hr : r' = r := by rw [← h2, h4]
    subst hr
    exact ⟨ins, e, h3, h4⟩
  · rintro ⟨ins, e, h1, h2⟩
    refine ⟨(), c', dumpLoop_ok.mpr ⟨ins, r, e, h1, h2⟩, ?_⟩
    rw [run_bind_ok (run_get _)]
    simp [h2]

/-- **C67** `dump` with `save_samples=True`: as without, and in addition the directory is made and the contents of
the returned dictionary are the contents of the file; all other files are as the samplers left them.  It raises if
the directory exists and `exist_ok` is false. -/
theorem C67_dump_saved {path : String} {filename : Option String} {existOk : Bool} {r : ℕ}
    {c c' : Collector S W V} :
    (Sampling.dump path filename existOk true).run c = (.ok r, c') ↔
      ∃ ins e, DumpedBy c.samplers c.samples c.env ins r e ∧ (e.dirs path = true → existOk = true) ∧
        c' = { c with
          samples := r, trace := c.trace ++ dumpCalls S 0 ins
          env := { e with
            dirs := fun p => if p = path then true else e.dirs p
            files := fun p =>
              if p = (let name := pathJoin path (filename.getD ("tmp_" ++ c.className ++ ".samples"))
                if name.endsWith ".npy" then name else name ++ ".npy")
              then some (e.heap r) else e.files p } } := by
  unfold Sampling.dump
  rw [run_bind_ok (run_get _), run_bind_eq_ok]
  have key : ∀ (ins : List ℕ) (r' : ℕ) (e : Env W V),
      (Bind.bind (PyM.get : PyM (Collector S W V) _) fun self =>
        if !true then (pure self.samples : PyM (Collector S W V) ℕ)
        else do
          onEnv (makedirs path existOk)
          onEnv (npSave (pathJoin path (filename.getD ("tmp_" ++ self.className ++ ".samples"))) self.samples)
          pure self.samples).run
        { c with env := e, samples := r', trace := c.trace ++ dumpCalls S 0 ins } =
      if e.dirs path && !existOk then
        (.error .os, { c with env := e, samples := r', trace := c.trace ++ dumpCalls S 0 ins })
      else (.ok r', { c with
          samples := r', trace := c.trace ++ dumpCalls S 0 ins
          env := { e with
            dirs := fun p => if p = path then true else e.dirs p
            files := fun p =>
              if p = (let name := pathJoin path (filename.getD ("tmp_" ++ c.className ++ ".samples"))
                if name.endsWith ".npy" then name else name ++ ".npy")
              then some (e.heap r') else e.files p } }) := by
    intro ins r' e
    rw [run_bind_ok (run_get _)]
    simp only [Bool.not_true, Bool.false_eq_true, if_false]
    have hm : (makedirs path existOk).run e = if e.dirs path && !existOk then (.error .os, e)
        else (.ok (), { e with dirs := fun p => if p = path then true else e.dirs p }) := by
      unfold makedirs
      rw [run_bind_ok (run_get _)]
      split <;> rfl
    have ho : (onEnv (makedirs path existOk)).run
        ({ c with env := e, samples := r', trace := c.trace ++ dumpCalls S 0 ins } : Collector S W V) =
        if e.dirs path && !existOk then
          (.error .os, { c with env := e, samples := r', trace := c.trace ++ dumpCalls S 0 ins })
        else (.ok (), { c with
          samples := r', trace := c.trace ++ dumpCalls S 0 ins
          env := { e with dirs := fun p => if p = path then true else e.dirs p } }) := by
      show (((makedirs path existOk).run e).1, { c with
        env := ((makedirs path existOk).run e).2, samples := r', trace := c.trace ++ dumpCalls S 0 ins }) = _
      rw [hm]
      split <;> rfl
    split
    · rename_i hc
      rw [if_pos hc] at ho
      rw [run_bind_error ho]
    · rename_i hc
      rw [if_neg hc] at ho
      rw [run_bind_ok ho]
      rfl
  constructor
  · rintro ⟨⟨⟩, c1, h1, h2⟩
    obtain ⟨ins, r', e, h3, rfl⟩ := dumpLoop_ok.mp h1
    have h2 := (key ins r' e).symm.trans h2
    split at h2
    · cases h2
    · rename_i hc
      simp only [Prod.mk.injEq, Except.ok.injEq] at h2
      obtain ⟨rfl, rfl⟩ := h2
      refine ⟨ins, e, h3, ?_, rfl⟩
      intro hd
      simpa [hd] using hc
  · rintro ⟨ins, e, h1, hd, h2⟩
    refine ⟨(), _, dumpLoop_ok.mpr ⟨ins, r, e, h1, rfl⟩, (key ins r e).trans ?_⟩
    rw [if_neg, h2]
    rcases hp : e.dirs path with _ | _
    · simp
    · simp [hd hp]

/-- **C67** What `dump` returns is what `get_samples` returns afterwards, whatever the samplers and arguments. -/
theorem C67_returned {path : String} {filename : Option String} {existOk saveSamples : Bool} {r : ℕ}
    {c c' : Collector S W V} (h : (Sampling.dump path filename existOk saveSamples).run c = (.ok r, c')) :
    Sampling.getSamples.run c' = (.ok r, c') := by
  have : c'.samples = r := by
    cases saveSamples
    · obtain ⟨ins, e, -, rfl⟩ := C67_dump_unsaved.mp h
      rfl
    · obtain ⟨ins, e, -, -, rfl⟩ := C67_dump_saved.mp h
      rfl
  show (Except.ok c'.samples, c') = _
  rw [this]

/-- A sampler that does not touch the entry `key`: no method changes it in a dictionary that exists already, and the
dictionary that `dump` returns has the entry of the one it was given. -/
def Keeps (key : String) (x : Sampler S W V) : Prop :=
  (∀ step e r, ((x.sample step).run e).2.heap r key = e.heap r key) ∧
  (∀ r e r', ((x.dump r).run e).2.heap r' key = e.heap r' key) ∧
  ∀ r e r' e', (x.dump r).run e = (.ok r', e') → e'.heap r' key = e.heap r key

theorem sampleLoop_keeps {key : String} (step : S) (xs : List (Sampler S W V)) (k : ℕ) (c : Collector S W V)
    (hx : ∀ x ∈ xs, Keeps key x) :
    ((sampleLoop step k xs).run c).2.samplers = c.samplers ∧
      ((sampleLoop step k xs).run c).2.env.heap ((sampleLoop step k xs).run c).2.samples key =
        c.env.heap c.samples key := by
  induction xs generalizing k c with
  | nil => exact ⟨rfl, rfl⟩
  | cons x xs ih =>
    rw [sampleLoop_cons]
    have h := (hx x (by simp)).1 step c.env c.samples
    rcases hr : (x.sample step).run c.env with ⟨_ | _, e⟩
    · rw [hr] at h
      exact ⟨rfl, h⟩
    · rw [hr] at h
      have := ih (k + 1) { c with env := e, trace := c.trace ++ [.sample k step] }
        fun y hy => hx y (by simp [hy])
      exact ⟨this.1, this.2.trans h⟩

theorem dumpLoop_keeps {key : String} (xs : List (Sampler S W V)) (k : ℕ) (c : Collector S W V)
    (hx : ∀ x ∈ xs, Keeps key x) :
    ((dumpLoop k xs).run c).2.samplers = c.samplers ∧
      ((dumpLoop k xs).run c).2.env.heap ((dumpLoop k xs).run c).2.samples key =
        c.env.heap c.samples key := by
  induction xs generalizing k c with
  | nil => exact ⟨rfl, rfl⟩
  | cons x xs ih =>
    rw [dumpLoop_cons]
    have h2 := (hx x (by simp)).2.1 c.samples c.env c.samples
    rcases hr : (x.dump c.samples).run c.env with ⟨_ | r, e⟩
    · rw [hr] at h2
      exact ⟨rfl, h2⟩
    · have h3 := (hx x (by simp)).2.2 _ _ _ _ hr
      have := ih (k + 1) { c with env := e, samples := r, trace := c.trace ++ [.dump k c.samples] }
        fun y hy => hx y (by simp [hy])
      exact ⟨this.1, this.2.trans h3⟩

theorem dump_keeps {key : String} (path : String) (filename : Option String) (existOk saveSamples : Bool)
    (c : Collector S W V) (hx : ∀ x ∈ c.samplers, Keeps key x) :
    ((Sampling.dump path filename existOk saveSamples).run c).2.samplers = c.samplers ∧
      ((Sampling.dump path filename existOk saveSamples).run c).2.env.heap
        ((Sampling.dump path filename existOk saveSamples).run c).2.samples key = c.env.heap c.samples key := by
  have h := dumpLoop_keeps c.samplers 0 c hx
  unfold Sampling.dump
  rw [run_bind_ok (run_get _)]
  rcases hd : (dumpLoop 0 c.samplers).run c with ⟨err | _, c1⟩
  · rw [run_bind_error hd]
    rw [hd] at h
    exact h
  · rw [run_bind_ok hd, run_bind_ok (run_get _)]
    rw [hd] at h
    cases saveSamples
    · exact h
    · simp only [Bool.not_true, Bool.false_eq_true, if_false]
      have hm : (onEnv (makedirs path existOk)).run c1 =
          (((makedirs path existOk).run c1.env).1, { c1 with env := ((makedirs path existOk).run c1.env).2 }) := rfl
      have hh : ((makedirs path existOk).run c1.env).2.heap = c1.env.heap := by
        unfold makedirs
        rw [run_bind_ok (run_get _)]
        split <;> rfl
      rcases hq : (makedirs path existOk).run c1.env with ⟨err | _, e⟩
      · rw [hq] at hm hh
        rw [run_bind_error hm]
        refine ⟨h.1, ?_⟩
        show e.heap c1.samples key = _
        rw [hh]
        exact h.2
      · rw [hq] at hm hh
        rw [run_bind_ok hm]
        refine ⟨h.1, ?_⟩
        show e.heap c1.samples key = _
        rw [hh]
        exact h.2

/-- **C67** A key set by `add_sample` keeps its value through every history of calls (including calls that raise) in
which the samplers leave the key alone and `add_sample` is not called with it again. -/
theorem C67_survives (key : String) (value : V) (c : Collector S W V) (ops : List (Op S V))
    (hx : ∀ x ∈ c.samplers, Keeps key x) (ho : ∀ v, Op.addSample key v ∉ ops) :
    let c' := ops.foldl Op.apply (Op.apply c (.addSample key value))
    c'.env.heap c'.samples key = some value := by
  have hadd : ∀ (c : Collector S W V) (k : String) (v : V), Op.apply c (.addSample k v) =
      { c with env := { c.env with heap := fun r =>
        if r = c.samples then (fun k' => if k' = k then some v else c.env.heap r k') else c.env.heap r } } :=
    fun _ _ _ => rfl
  have main : ∀ (ops : List (Op S V)) (c : Collector S W V), (∀ x ∈ c.samplers, Keeps key x) →
      (∀ v, Op.addSample key v ∉ ops) →
      (ops.foldl Op.apply c).env.heap (ops.foldl Op.apply c).samples key = c.env.heap c.samples key := by
    intro ops
    induction ops with
    | nil => intros; rfl
    | cons o ops ih =>
      intro c hx ho
      rw [List.foldl_cons]
      have step : (Op.apply c o).samplers = c.samplers ∧
          (Op.apply c o).env.heap (Op.apply c o).samples key = c.env.heap c.samples key := by
        cases o with
        | sample step =>
          have := sampleLoop_keeps step c.samplers 0 c hx
          exact this
        | dump p f a b => exact dump_keeps p f a b c hx
        | addSample k v =>
          have hk : key ≠ k := by
            rintro rfl
            exact ho v (by simp)
          rw [hadd]
          simp [hk]
        | getSamples => exact ⟨rfl, rfl⟩
      rw [ih _ (by rw [step.1]; exact hx) fun v hv => ho v (by simp [hv]), step.2]
  intro c'
  show (ops.foldl Op.apply _).env.heap _ key = _
  rw [main ops _ (by rw [hadd]; exact hx) ho, hadd]
  simp

/-- **C67** The other half: a sampler that overwrites the key is what makes it change.  After a `dump` through
samplers the entry is the one in the dictionary that the last sampler returned. -/
theorem C67_overwritten {path : String} {filename : Option String} {existOk saveSamples : Bool} {r : ℕ}
    {c c' : Collector S W V} (h : (Sampling.dump path filename existOk saveSamples).run c = (.ok r, c')) :
    ∃ ins e, DumpedBy c.samplers c.samples c.env ins r e ∧ c'.env.heap c'.samples = e.heap r := by
  cases saveSamples
  · obtain ⟨ins, e, hd, rfl⟩ := C67_dump_unsaved.mp h
    exact ⟨ins, e, hd, rfl⟩
  · obtain ⟨ins, e, hd, -, rfl⟩ := C67_dump_saved.mp h
    exact ⟨ins, e, hd, rfl⟩

/-! A collector with two samplers: a counter that stores its count under `"count"` in the dictionary it is given,
and one that raises when the step is 3 and returns a copy of the dictionary at the reference 7. -/

def counter : Sampler ℕ ℕ ℕ where
  sample _ := modify fun e => { e with own := e.own + 1 }
  dump r := do
    modify fun e => { e with heap := fun r' =>
      if r' = r then (fun k => if k = "count" then some e.own else e.heap r k) else e.heap r' }
    pure r

def copier : Sampler ℕ ℕ ℕ where
  sample step := if step = 3 then raise .value else pure ()
  dump r := do
    modify fun e => { e with heap := fun r' => if r' = 7 then e.heap r else e.heap r' }
    pure 7

def demoCollector : Collector ℕ ℕ ℕ :=
  Sampling.init [counter, copier] 0 "Demo" ⟨fun _ _ => none, fun _ => false, fun _ => none, 0⟩

/-- Steps 1, 2 and 3 (the last raises after the counter has counted), a key, and a dump that is not saved. -/
example :
    let c := [Op.sample 1, .addSample "x" 5, .sample 2, .sample 3, .dump "d" none true false].foldl Op.apply
      demoCollector
    c.samples = 7 ∧ c.env.heap 7 "count" = some 3 ∧ c.env.heap 7 "x" = some 5 ∧ c.trace.length = 8 := by
  decide

end QS.Props
