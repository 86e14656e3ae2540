import Verif.Lemmas.Cache
import Verif.Props.Coulomb

/-!
# The Coulomb cache (C53, C54, C74, C78)
-/

namespace QS.Props

open Cache NDArray Coulomb Spec

/-- A disk without cache files. -/
def NoCacheFiles (w : Disk) : Prop := ∀ s n, w.files (join s (fileName n)) = none

theorem NoCacheFiles.ok {w : Disk} (h : NoCacheFiles w) : CacheOK w := by
  intro s n L hL
  rw [h] at hL
  cases hL

/-! ## C53 -/

/-- **C53** After every history of complete calls of all sizes, switching the cache on and off, changes of
`sys.path[0]` and removals of files, starting without cache files, `get_coulomb_elements` returns the elements
that are computed without cache. -/
theorem C53_transparent {w : Disk} (hw : NoCacheFiles w) {es : List Event}
    (hes : ∀ e ∈ es, ∀ n m, e ≠ .interrupted n m) (n : ℕ) :
    (exec (getCoulombElements n) (history w es)).1 = getCoulombElementsRaw n := by
  rw [(hw.ok.history hes).call n, raw_eq]

/-- **C53** The run to the end is the result of enough single steps. -/
theorem C53_steps (n : ℕ) (w : Disk) : ∃ m, steps m (getCoulombElements n, w)
    = (.done (exec (getCoulombElements n) w).1, (exec (getCoulombElements n) w).2) := by
  obtain ⟨m, h⟩ := exec_steps (getCoulombElements n) w
  exact ⟨m, h m le_rfl⟩

/-- An empty disk, with the cache switched on. -/
def emptyDisk : Disk := ⟨true, "/work".toList, fun _ => none, fun _ => 0⟩

/-- The second call of a process loads the file of the first, which is there; both give the elements. -/
example : (history emptyDisk [.call 2]).files "/work/tdho_coulomb_num_orbitals=2.npy".toList
      = some (encode (elements 2)) ∧
    (exec (getCoulombElements 2) (history emptyDisk [.call 2, .call 3, .setEnv false, .setEnv true])).1
      = getCoulombElementsRaw 2 := by
  constructor
  · have hf : cacheFile emptyDisk 2 = "/work/tdho_coulomb_num_orbitals=2.npy".toList := by decide +kernel
    show (exec (getCoulombElements 2) emptyDisk).2.files _ = _
    rw [exec_save rfl rfl, ← hf, written_files, if_pos rfl, List.take_length]
  · exact C53_transparent (fun _ _ => rfl) (by simp) 2

/-! ## C54 -/

/-- **C54** After every history in which calls may also be interrupted after any number of steps, a call that returns
elements returns the right ones; if it does not, it raises `EOFError` or `ValueError`. -/
theorem C54_interrupted {w : Disk} (hw : NoCacheFiles w) (es : List Event) (n : ℕ) :
    (exec (getCoulombElements n) (history w es)).1 = getCoulombElementsRaw n ∨
    (exec (getCoulombElements n) (history w es)).1 = .error .eof ∨
    (exec (getCoulombElements n) (history w es)).1 = .error .value := by
  have h := hw.ok.prefix.history es
  generalize history w es = w' at h
  rw [raw_eq]
  cases he : w'.env with
  | false => left; rw [exec_off he]
  | true =>
    cases hf : w'.files (cacheFile w' n) with
    | none => left; rw [exec_save he hf]
    | some L =>
      rw [exec_load he hf]
      obtain ⟨k, rfl⟩ := h _ _ _ hf
      by_cases hk : k < (encode (elements n)).length
      · right
        dsimp only
        rw [decode_truncated _ hk]
        by_cases h0 : k = 0 <;> simp [h0]
      · left
        dsimp only
        rw [List.take_of_length_le (by omega), decode_encode]

/-- **C54** In particular no later call returns wrong elements. -/
theorem C54_no_wrong_elements {w : Disk} (hw : NoCacheFiles w) (es : List Event) (n : ℕ) (u : NDArray ℂ)
    (h : (exec (getCoulombElements n) (history w es)).1 = .ok u) : getCoulombElementsRaw n = .ok u := by
  rcases C54_interrupted hw es n with h1 | h1 | h1 <;> rw [h] at h1
  · exact h1.symm
  · cases h1
  · cases h1

/-! ## C74 -/

/-- C74 as stated. -/
def C74_statement : Prop := ∀ (w : Disk), NoCacheFiles w → ∀ (es : List Event) (n : ℕ),
  (exec (getCoulombElements n) (history w es)).1 = getCoulombElementsRaw n

/-- **C74** (what happens) A call that creates its cache file and is interrupted before the last of the cells is written
leaves a part of the file behind.  Every later call of this size with the same `sys.path[0]` and the cache
switched on raises: `EOFError` if nothing was written, else `ValueError`. -/
theorem C74_actual {w : Disk} (he : w.env = true) {n : ℕ} (hf : w.files (cacheFile w n) = none) {k : ℕ}
    (hk : k < (encode (elements n)).length) :
    exec (getCoulombElements n) ((Event.interrupted n (k + 4)).apply w)
      = (.error (if k = 0 then .eof else .value), (Event.interrupted n (k + 4)).apply w) := by
  have h1 : (Event.interrupted n (k + 4)).apply w = written w n k := by
    rcases steps_get w n (k + 4) with ⟨-, h | h | h⟩ | ⟨-, -, k', h, e⟩
    · omega
    · rw [he] at h; cases h
    · exact absurd hf h
    · have : k' = k := by omega
      subst this
      exact e
  rw [h1, exec_load (L := (encode (elements n)).take k) (by exact he), decode_truncated _ hk]
  rw [written_files]
  exact if_pos rfl

/-- **C74 is false as stated.** -/
theorem C74_false : ¬ C74_statement := by
  intro h
  have h1 := h emptyDisk (fun _ _ => rfl) [.interrupted 2 4] 2
  have h2 : (exec (getCoulombElements 2) (history emptyDisk [.interrupted 2 4])).1 = .error .eof :=
    congrArg Prod.fst (C74_actual (w := emptyDisk) rfl (n := 2) rfl (k := 0) (encode_pos _))
  rw [h2, raw_eq] at h1
  cases h1

/-- **C74 (the part that holds)** Calls interrupted before they open the cache file, or after they have written
it, do not disturb any later call. -/
theorem C74_partial {w : Disk} (hw : NoCacheFiles w) {es : List Event}
    (hes : ∀ n m, Event.interrupted n m ∈ es → m < 4 ∨ n ^ 4 + 5 ≤ m) (n : ℕ) :
    (exec (getCoulombElements n) (history w es)).1 = getCoulombElementsRaw n := by
  have key : ∀ (es : List Event) (w : Disk), CacheOK w →
      (∀ n m, Event.interrupted n m ∈ es → m < 4 ∨ n ^ 4 + 5 ≤ m) → CacheOK (history w es) := by
    intro es
    induction es with
    | nil => exact fun w h _ => h
    | cons e es ih =>
      intro w h hes
      refine ih (e.apply w) ?_ fun n m hm => hes n m (by simp [hm])
      cases e with
      | interrupted n m =>
        show CacheOK (steps m (getCoulombElements n, w)).2
        rcases steps_get w n m with ⟨e, -⟩ | ⟨-, -, k, hk, e⟩
        · rw [e]; exact h
        · rw [e]
          have hlen : (encode (elements n)).length = n ^ 4 + 1 := by
            rw [encode_length]
            simp only [elements, NDArray.ofFn, List.prod_cons, List.prod_nil]
            ring
          have hge : (encode (elements n)).length ≤ k := by
            rcases hes n m (by simp) with h | h <;> omega
          have : written w n k = written w n (encode (elements n)).length := by
            unfold written
            rw [List.take_of_length_le hge, List.take_length]
          rw [this]
          exact h.written n
      | _ => exact h.apply (by simp)
  rw [(key es w hw.ok hes).call n, raw_eq]

/-! ## C78 -/

/-- C78 as stated: whatever the interleaving of the steps of any number of processes, a call that returns
elements returns the right ones. -/
def C78_statement : Prop := ∀ (w : Disk), NoCacheFiles w → ∀ (ns is : List ℕ) (i n : ℕ) (u : NDArray ℂ),
  ns[i]? = some n → (schedule is (ns.map getCoulombElements, w)).1[i]? = some (.done (.ok u)) →
  getCoulombElementsRaw n = .ok u

/-- **C78 (the part that holds)** For all numbers of processes, all sizes and all interleavings in which no cache
file is opened for writing more than once (any number of processes may read it meanwhile): a call that returns
elements returns the right ones. -/
theorem C78_partial {w : Disk} (hw : NoCacheFiles w) (ns is : List ℕ)
    (hone : ∀ f, (schedule is (ns.map getCoulombElements, w)).2.opened f ≤ 1) {i n : ℕ} {u : NDArray ℂ}
    (hi : ns[i]? = some n) (h : (schedule is (ns.map getCoulombElements, w)).1[i]? = some (.done (.ok u))) :
    getCoulombElementsRaw n = .ok u := by
  have h0 : Inv ns (fun _ => .start) w :=
    ⟨fun _ _ _ _ h => (by cases h), hw.ok.prefix, fun _ _ _ _ _ h => (by cases h),
      fun _ _ _ _ _ _ _ _ _ _ h => (by cases h)⟩
  obtain ⟨phs, h1, h2⟩ := h0.schedule (ps := ns.map getCoulombElements) is (fun i => by
    rw [List.getElem?_map]; rfl) hone
  rw [h2, hi, Option.map_some] at h
  have h3 := done_phase (fun s k hs => (h1.writer i n hi s k hs).1) (Option.some.inj h)
  rw [raw_eq, h1.result i n hi u h3]

/-- The steps of the witness: the first two processes find no file; the first opens it and writes the header and one
number; the second opens (and empties) it; the first writes the remaining numbers; the second writes the
header; the third loads the file. -/
def badSchedule : List ℕ :=
  List.replicate 3 0 ++ (List.replicate 3 1 ++ (List.replicate 3 0 ++ (List.replicate 1 1
    ++ (List.replicate 15 0 ++ (List.replicate 1 1 ++ List.replicate 4 2)))))

theorem coulomb_pos : coulombHo 0 0 0 0 0 0 0 0 ≠ 0 := by
  have h := C46_formula 0 0 0 0 0 0 0 0
  simp only [Nat.cast_zero] at h
  have hg : Real.Gamma 2⁻¹ = Real.sqrt Real.pi := by rw [← one_div, Real.Gamma_one_half_eq]
  have hv : coulombHo 0 0 0 0 0 0 0 0 = Real.sqrt (Real.pi / 2) := by
    rw [h]
    simp [anisimovasMatulis, amInner, hg]
    ring
  rw [hv]
  exact (Real.sqrt_pos.2 (by positivity)).ne'

theorem bad_run : ∃ (w : Disk) (u : NDArray ℂ), NoCacheFiles w ∧ u.get [0, 0, 0, 0] = 0 ∧
    (schedule badSchedule ([2, 2, 2].map getCoulombElements, w)).1[2]? = some (.done (.ok u)) := by
  let w := emptyDisk
  let f := cacheFile emptyDisk 2
  let K : Prog (NDArray ℂ) := .done (.ok (elements 2))
  let zs : List ℂ := (List.range 14).map fun k => (elements 2).get (unravel [2, 2, 2, 2] (k + 2))
  let a : Cell := .header .float64 [2, 2, 2, 2]
  let b : Cell := .value ((elements 2).get (unravel [2, 2, 2, 2] 0))
  let c : Cell := .value ((elements 2).get (unravel [2, 2, 2, 2] 1))
  have hE : encode (elements 2) = a :: b :: c :: zs.map Cell.value := by
    show (_ :: _) = (_ :: _)
    congr 1
  have h3 : steps 3 (getCoulombElements 2, w) = (save f (elements 2) K, w) := by
    show step (step (step (getCoulombElements 2, w))) = _
    simp only [getCoulombElements, step, w, emptyDisk, raw_eq, Bool.true_eq_false, if_false]
    rfl
  let w1 := writeFile (writeFile (createFile w f) f 0 a) f 1 b
  have hsave : save f (elements 2) K
      = .create f (.write f 0 a (.write f 1 b (.write f 2 c (writes f 3 (zs.map Cell.value) K)))) := by
    unfold save
    rw [hE]
    rfl
  have h4 : steps 3 (save f (elements 2) K, w)
      = (.write f 2 c (writes f 3 (zs.map Cell.value) K), w1) := by
    rw [hsave]; rfl
  let w2 := createFile w1 f
  have h5 : steps 1 (save f (elements 2) K, w1)
      = (.write f 0 a (.write f 1 b (.write f 2 c (writes f 3 (zs.map Cell.value) K))), w2) := by
    rw [hsave]; rfl
  let w3 := setFile (writeFile w2 f 2 c) f ([.hole, .hole, c] ++ (zs.map Cell.value).take 14)
  have h6 : (steps 15 (.write f 2 c (writes f 3 (zs.map Cell.value) K), w2)).2 = w3 := by
    show (steps 14 (writes f 3 (zs.map Cell.value) K, writeFile w2 f 2 c)).2 = _
    have := steps_writes f (zs.map Cell.value) (.ok (elements 2)) 14 (writeFile w2 f 2 c)
      [.hole, .hole, c] (by simp [writeFile, w2, createFile, writeAt])
    exact this
  have hw3 : w3.files f = some (.hole :: .hole :: c :: zs.map Cell.value) := by
    have : (zs.map Cell.value).take 14 = zs.map Cell.value := List.take_of_length_le (by simp [zs])
    simp [w3, setFile, this]
  let w4 := writeFile w3 f 0 a
  have hw4 : w4.files f = some (a :: .hole :: c :: zs.map Cell.value) := by
    simp [w4, writeFile, hw3, writeAt]
  have h8 : steps 4 (getCoulombElements 2, w4)
      = (.done (decode (a :: .hole :: c :: zs.map Cell.value)), w4) := by
    show step (step (step (step (getCoulombElements 2, w4)))) = _
    have he : w4.env = true := rfl
    have hp : join w4.sysPath0 (fileName 2) = f := rfl
    simp only [getCoulombElements, step, he, Bool.true_eq_false, if_false, hp, hw4, Option.isSome_some,
      if_true, load]
  have hd : decode (a :: .hole :: c :: zs.map Cell.value) = .ok (NDArray.ofFn .float64 [2, 2, 2, 2]
      fun i => (0 :: (elements 2).get (unravel [2, 2, 2, 2] 1) :: zs).getD (ravel [2, 2, 2, 2] i) 0) := by
    rw [decode_header, if_neg (by simp [zs]), List.take_of_length_le (by simp [zs])]
    have := mapM_number ((elements 2).get (unravel [2, 2, 2, 2] 1) :: zs)
    rw [List.map_cons] at this
    rw [List.mapM_cons, this]
    rfl
  refine ⟨w, NDArray.ofFn .float64 [2, 2, 2, 2]
      fun i => (0 :: (elements 2).get (unravel [2, 2, 2, 2] 1) :: zs).getD (ravel [2, 2, 2, 2] i) 0,
      fun _ _ => rfl, ?_, ?_⟩
  · rw [ofFn_get_of (show InRange [2, 2, 2, 2] [0, 0, 0, 0] by simp [InRange])]
    simp [ravel]
  · unfold badSchedule
    rw [schedule_append, schedule_replicate 3 0 w (p := getCoulombElements 2) rfl, h3]
    rw [schedule_append, schedule_replicate 3 1 w (p := getCoulombElements 2) rfl, h3]
    rw [schedule_append, schedule_replicate 3 0 w (p := save f (elements 2) K) rfl, h4]
    rw [schedule_append, schedule_replicate 1 1 w1 (p := save f (elements 2) K) rfl, h5]
    rw [schedule_append, schedule_replicate 15 0 w2
      (p := .write f 2 c (writes f 3 (zs.map Cell.value) K)) rfl, h6]
    rw [schedule_append, schedule_replicate 1 1 w3
      (p := .write f 0 a (.write f 1 b (.write f 2 c (writes f 3 (zs.map Cell.value) K)))) rfl]
    rw [schedule_replicate 4 2 _ (p := getCoulombElements 2) rfl]
    rw [show (steps 1 (Prog.write f 0 a (.write f 1 b (.write f 2 c (writes f 3 (zs.map Cell.value) K))),
      w3)).2 = w4 from rfl, h8, hd]
    rfl

/-- **C78 is false as stated**: with two writers at once, a third process can load a file whose first number is a
hole. -/
theorem C78_false : ¬ C78_statement := by
  intro h
  obtain ⟨w, u, hw, hu, hs⟩ := bad_run
  have h1 := h w hw [2, 2, 2] badSchedule 2 2 u rfl hs
  rw [raw_eq] at h1
  have h2 : (elements 2).get [0, 0, 0, 0] = 0 := by rw [Except.ok.inj h1, hu]
  unfold elements at h2
  rw [ofFn_get_of (show InRange [2, 2, 2, 2] [0, 0, 0, 0] by simp [InRange])] at h2
  have h0 : Idx.getIndicesNm 0 = (0, 0) := by decide +kernel
  simp only [List.getD_cons_zero, List.getD_cons_succ, h0, Complex.ofReal_eq_zero] at h2
  exact coulomb_pos h2

end QS.Props
