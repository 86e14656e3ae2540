import Verif.Model.Cache
import Verif.Lemmas.Coulomb

/-!
# Facts about the Coulomb cache
-/

namespace QS.Cache

open NDArray

/-! ## The file format -/

theorem ravel_lt : ∀ {sh i : List ℕ}, InRange sh i → ravel sh i < sh.prod
  | [], [], _ => by simp [ravel]
  | s :: sh, i :: is, h => by
    have h1 : i < s := h.1
    have h2 := ravel_lt (show InRange sh is from h.2)
    simp only [ravel, List.prod_cons]
    calc i * sh.prod + ravel sh is < i * sh.prod + sh.prod := by omega
      _ = (i + 1) * sh.prod := by ring
      _ ≤ s * sh.prod := Nat.mul_le_mul_right _ h1

theorem unravel_ravel : ∀ {sh i : List ℕ}, InRange sh i → unravel sh (ravel sh i) = i
  | [], [], _ => rfl
  | s :: sh, i :: is, h => by
    have h2 := ravel_lt (show InRange sh is from h.2)
    have hpos : 0 < sh.prod := by omega
    simp only [ravel, unravel]
    rw [Nat.add_comm, Nat.add_mul_div_right _ _ hpos, Nat.div_eq_of_lt h2, Nat.zero_add,
      Nat.add_mul_mod_self_right, Nat.mod_eq_of_lt h2, unravel_ravel h.2]

theorem ofFn_get_self (a : NDArray ℂ) : ofFn a.dtype a.shape a.get = a := by
  cases a with
  | mk dt sh get supp =>
    unfold ofFn
    congr 1
    funext i
    by_cases h : InRange sh i
    · simp [h]
    · simp [h, supp i h]

theorem mapM_number (zs : List ℂ) : (zs.map Cell.value).mapM Cell.number = Except.ok zs := by
  induction zs with
  | nil => rfl
  | cons z zs ih => rw [List.map_cons, List.mapM_cons, ih]; rfl

theorem encode_length (a : NDArray ℂ) : (encode a).length = a.shape.prod + 1 := by simp [encode]

theorem decode_header (dt : DType) (sh : List ℕ) (data : List Cell) : decode (.header dt sh :: data)
    = if data.length < sh.prod then .error .value
      else ((data.take sh.prod).mapM Cell.number).bind fun zs =>
        .ok (NDArray.ofFn dt sh fun i => zs.getD (ravel sh i) 0) := rfl

/-- A saved array is loaded unchanged. -/
theorem decode_encode (a : NDArray ℂ) : decode (encode a) = .ok a := by
  unfold encode
  have e : (List.range a.shape.prod).map (fun k => Cell.value (a.get (unravel a.shape k)))
      = ((List.range a.shape.prod).map (fun k => a.get (unravel a.shape k))).map Cell.value := by
    rw [List.map_map]; rfl
  rw [decode_header, if_neg (by simp), List.take_of_length_le (by simp), e, mapM_number]
  show Except.ok _ = _
  congr 1
  conv_rhs => rw [← ofFn_get_self a]
  refine ofFn_congr fun i hi => ?_
  have hlt := ravel_lt hi
  rw [List.getD_eq_getElem?_getD, List.getElem?_map, List.getElem?_range hlt]
  simp [unravel_ravel hi]

/-- A file that was not written to its end is not loaded. -/
theorem decode_truncated (a : NDArray ℂ) {k : ℕ} (hk : k < (encode a).length) :
    decode ((encode a).take k) = .error (if k = 0 then .eof else .value) := by
  cases k with
  | zero => rfl
  | succ k =>
    rw [encode_length] at hk
    unfold encode
    rw [List.take_succ_cons]
    rw [decode_header, if_pos (by simp; omega), if_neg (by omega)]

/-! ## The file names -/

theorem slash_not_mem (n : ℕ) : '/' ∉ fileName n := by
  unfold fileName
  simp only [List.mem_append, not_or]
  refine ⟨⟨by decide, fun h => ?_⟩, by decide⟩
  have := Nat.isDigit_of_mem_toDigits (by norm_num) (by norm_num) h
  exact absurd this (by decide)

theorem fileName_injective {m n : ℕ} (h : fileName m = fileName n) : m = n := by
  unfold fileName at h
  have h1 := List.append_cancel_left (List.append_cancel_right h)
  rw [← Nat.ofDigitChars_ten_toDigits (n := m), h1, Nat.ofDigitChars_ten_toDigits]

/-- The part of a path after its last slash. -/
theorem takeWhile_join (s : Path) (n : ℕ) :
    (join s (fileName n)).reverse.takeWhile (· != '/') = (fileName n).reverse := by
  have hall : ∀ c ∈ (fileName n).reverse, (c != '/') = true := by
    intro c hc
    rw [List.mem_reverse] at hc
    simp only [bne_iff_ne, ne_eq]
    rintro rfl
    exact slash_not_mem n hc
  unfold join
  by_cases h : s = [] ∨ s.getLast? = some '/'
  · rw [if_pos h, List.reverse_append, List.takeWhile_append_of_pos hall]
    rcases h with rfl | h
    · simp
    · rw [← List.head?_reverse] at h
      cases hs : s.reverse with
      | nil => simp
      | cons c cs =>
        rw [hs] at h
        simp only [List.head?_cons, Option.some.injEq] at h
        rw [h, List.takeWhile_cons_of_neg (by simp), List.append_nil]
  · rw [if_neg h, List.reverse_append, List.reverse_cons, List.append_assoc,
      List.takeWhile_append_of_pos hall, List.singleton_append, List.takeWhile_cons_of_neg (by simp),
      List.append_nil]

theorem join_injective {s s' : Path} {m n : ℕ} (h : join s (fileName m) = join s' (fileName n)) : m = n := by
  have h1 := takeWhile_join s m
  rw [h, takeWhile_join] at h1
  exact fileName_injective (List.reverse_injective h1.symm)

/-! ## Programs -/

theorem steps_done {α : Type} (n : ℕ) (r : Except PyErr α) (w : Disk) :
    steps n (.done r, w) = (.done r, w) := by
  induction n with
  | zero => rfl
  | succ n ih => exact ih

theorem steps_add {α : Type} (m n : ℕ) (s : Prog α × Disk) : steps (m + n) s = steps n (steps m s) := by
  induction m generalizing s with
  | zero => rw [Nat.zero_add]; rfl
  | succ m ih => rw [Nat.succ_add]; exact ih _

/-- A program run to its end has made enough single steps. -/
theorem exec_steps {α : Type} (p : Prog α) (w : Disk) :
    ∃ n, ∀ m, n ≤ m → steps m (p, w) = (.done (exec p w).1, (exec p w).2) := by
  have shift : ∀ (p p' : Prog α) (w w' : Disk), step (p, w) = (p', w') → exec p w = exec p' w' →
      (∃ n, ∀ m, n ≤ m → steps m (p', w') = (.done (exec p' w').1, (exec p' w').2)) →
      ∃ n, ∀ m, n ≤ m → steps m (p, w) = (.done (exec p w).1, (exec p w).2) := by
    rintro p p' w w' h1 h2 ⟨n, hn⟩
    refine ⟨n + 1, fun m hm => ?_⟩
    obtain ⟨k, rfl⟩ : ∃ k, m = k + 1 := ⟨m - 1, by omega⟩
    show steps k (step (p, w)) = _
    rw [h1, hn k (by omega), h2]
  induction p generalizing w with
  | done r => exact ⟨0, fun m _ => steps_done m r w⟩
  | getenv k ih => exact shift _ _ w w rfl rfl (ih _ _)
  | sysPath k ih => exact shift _ _ w w rfl rfl (ih _ _)
  | pathExists f k ih => exact shift _ _ w w rfl rfl (ih _ _)
  | readFile f k ih => exact shift _ _ w w rfl rfl (ih _ _)
  | create f k ih => exact shift _ _ w _ rfl rfl (ih _)
  | write f o c k ih => exact shift _ _ w _ rfl rfl (ih _)

theorem writeAt_end (c : Cell) (L : List Cell) : writeAt L.length c L = L ++ [c] := by
  simp [writeAt]

/-- A disk with another content of one file. -/
def setFile (w : Disk) (f : Path) (L : List Cell) : Disk :=
  { w with files := Function.update w.files f (some L) }

theorem setFile_setFile (w : Disk) (f : Path) (L L' : List Cell) :
    setFile (setFile w f L) f L' = setFile w f L' := by
  simp [setFile]

theorem setFile_same {w : Disk} {f : Path} {L : List Cell} (h : w.files f = some L) : setFile w f L = w := by
  cases w
  simp only [setFile] at *
  rw [← h, Function.update_eq_self]

theorem writeFile_end {w : Disk} {f : Path} {L : List Cell} (h : w.files f = some L) (c : Cell) :
    writeFile w f L.length c = setFile w f (L ++ [c]) := by
  simp [writeFile, setFile, h, writeAt_end]

theorem exec_writes {α : Type} (f : Path) (cs : List Cell) (k : Prog α) (w : Disk) (L : List Cell)
    (h : w.files f = some L) : exec (writes f L.length cs k) w = exec k (setFile w f (L ++ cs)) := by
  induction cs generalizing w L with
  | nil => simp only [writes, List.append_nil, setFile_same h]
  | cons c cs ih =>
    show exec (writes f (L.length + 1) cs k) (writeFile w f L.length c) = _
    rw [writeFile_end h]
    have := ih (setFile w f (L ++ [c])) (L ++ [c]) (by simp [setFile])
    rw [List.length_append, List.length_singleton] at this
    rw [this, setFile_setFile]
    simp

theorem steps_writes {α : Type} (f : Path) (cs : List Cell) (r : Except PyErr α) (n : ℕ) (w : Disk)
    (L : List Cell) (h : w.files f = some L) :
    (steps n (writes f L.length cs (.done r), w)).2 = setFile w f (L ++ cs.take n) := by
  induction cs generalizing w L n with
  | nil => simp only [writes, steps_done, List.take_nil, List.append_nil, setFile_same h]
  | cons c cs ih =>
    cases n with
    | zero => simp only [steps, List.take_zero, List.append_nil, setFile_same h]
    | succ n =>
      show (steps n (writes f (L.length + 1) cs (.done r), writeFile w f L.length c)).2 = _
      rw [writeFile_end h]
      have := ih n (setFile w f (L ++ [c])) (L ++ [c]) (by simp [setFile])
      rw [List.length_append, List.length_singleton] at this
      rw [this, setFile_setFile]
      simp

/-! ## Calls -/

/-- The Coulomb elements. -/
noncomputable def elements (n : ℕ) : NDArray ℂ :=
  ofFn .float64 [n, n, n, n] (fun i => ((Coulomb.coulombHo
        (Idx.getIndicesNm (i.getD 0 0)).1 (Idx.getIndicesNm (i.getD 0 0)).2
        (Idx.getIndicesNm (i.getD 1 0)).1 (Idx.getIndicesNm (i.getD 1 0)).2
        (Idx.getIndicesNm (i.getD 2 0)).1 (Idx.getIndicesNm (i.getD 2 0)).2
        (Idx.getIndicesNm (i.getD 3 0)).1 (Idx.getIndicesNm (i.getD 3 0)).2 : ℝ) : ℂ))

theorem raw_eq (n : ℕ) : Coulomb.getCoulombElementsRaw n = .ok (elements n) :=
  Coulomb.getCoulombElementsRaw_eq n

/-- The cache file a call uses. -/
def cacheFile (w : Disk) (n : ℕ) : Path := join w.sysPath0 (fileName n)

theorem exec_off {w : Disk} (h : w.env = false) (n : ℕ) :
    exec (getCoulombElements n) w = (.ok (elements n), w) := by
  simp only [getCoulombElements, exec, h, if_true, raw_eq]

theorem exec_load {w : Disk} (h : w.env = true) {n : ℕ} {L : List Cell} (hf : w.files (cacheFile w n) = some L) :
    exec (getCoulombElements n) w = (decode L, w) := by
  unfold cacheFile at hf
  simp [getCoulombElements, exec, h, hf, load]

/-- The disk on which a cache file was written up to the `k`-th cell. -/
noncomputable def written (w : Disk) (n k : ℕ) : Disk :=
  setFile (createFile w (cacheFile w n)) (cacheFile w n) ((encode (elements n)).take k)

theorem exec_save {w : Disk} (h : w.env = true) {n : ℕ} (hf : w.files (cacheFile w n) = none) :
    exec (getCoulombElements n) w = (.ok (elements n), written w n (encode (elements n)).length) := by
  have hf' := hf
  unfold cacheFile at hf'
  have e : exec (getCoulombElements n) w = exec (writes (join w.sysPath0 (fileName n)) 0
      (encode (elements n)) (.done (.ok (elements n)))) (createFile w (join w.sysPath0 (fileName n))) := by
    simp [getCoulombElements, exec, h, hf', raw_eq, save]
  rw [e]
  have e0 := exec_writes (join w.sysPath0 (fileName n)) (encode (elements n))
    (.done (.ok (elements n))) (createFile w (join w.sysPath0 (fileName n))) [] (by simp [createFile])
  rw [List.length_nil] at e0
  rw [e0]
  simp [exec, written, cacheFile]

/-- A call that is interrupted has written a part of its cache file, or nothing. -/
theorem steps_get (w : Disk) (n m : ℕ) :
    (steps m (getCoulombElements n, w)).2 = w ∧
        (m < 4 ∨ w.env = false ∨ w.files (cacheFile w n) ≠ none) ∨
      (w.env = true ∧ w.files (cacheFile w n) = none ∧
        ∃ k, m = k + 4 ∧ (steps m (getCoulombElements n, w)).2 = written w n k) := by
  cases he : w.env with
  | false =>
    left
    refine ⟨?_, Or.inr (Or.inl rfl)⟩
    match m with
    | 0 => rfl
    | m + 1 =>
      show (steps m (step (getCoulombElements n, w))).2 = w
      simp only [getCoulombElements, step, he, if_true, steps_done]
  | true =>
    match m with
    | 0 => exact Or.inl ⟨rfl, Or.inl (by omega)⟩
    | 1 => exact Or.inl ⟨rfl, Or.inl (by omega)⟩
    | 2 =>
      refine Or.inl ⟨?_, Or.inl (by omega)⟩
      simp only [steps, getCoulombElements, step, he, Bool.true_eq_false, if_false]
    | m + 3 =>
      have h3 : steps (m + 3) (getCoulombElements n, w) = steps m
          ((if (w.files (cacheFile w n)).isSome = true then load (cacheFile w n) else
            save (cacheFile w n) (elements n) (.done (.ok (elements n)))), w) := by
        show steps m (step (step (step (getCoulombElements n, w)))) = _
        simp only [getCoulombElements, step, he, Bool.true_eq_false, if_false, raw_eq, cacheFile]
        congr
      rw [h3]
      cases hf : w.files (cacheFile w n) with
      | some L =>
        refine Or.inl ⟨?_, Or.inr (Or.inr (by simp))⟩
        rw [if_pos (by rfl)]
        match m with
        | 0 => rfl
        | m + 1 =>
          show (steps m (step (load _, w))).2 = w
          simp only [load, step, hf, steps_done]
      | none =>
        rw [if_neg (by simp)]
        match m with
        | 0 => exact Or.inl ⟨rfl, Or.inl (by omega)⟩
        | m + 1 =>
          right
          refine ⟨rfl, rfl, m, rfl, ?_⟩
          show (steps m (step (save _ _ _, w))).2 = _
          simp only [save, step]
          have := steps_writes (cacheFile w n) (encode (elements n)) (.ok (elements n)) m
            (createFile w (cacheFile w n)) [] (by simp [createFile])
          simpa [written] using this

/-! ## Histories -/

/-- Every cache file holds the first cells of the right content. -/
def PrefixOK (w : Disk) : Prop :=
  ∀ s n L, w.files (join s (fileName n)) = some L → ∃ k, L = (encode (elements n)).take k

/-- Every cache file holds the right content. -/
def CacheOK (w : Disk) : Prop :=
  ∀ s n L, w.files (join s (fileName n)) = some L → L = encode (elements n)

theorem written_files (w : Disk) (n k : ℕ) (f : Path) : (written w n k).files f
    = if f = cacheFile w n then some ((encode (elements n)).take k) else w.files f := by
  simp only [written, setFile, createFile, Function.update_idem, Function.update_apply]

theorem PrefixOK.written {w : Disk} (h : PrefixOK w) (n k : ℕ) : PrefixOK (written w n k) := by
  intro s n' L hL
  rw [written_files] at hL
  by_cases hf : join s (fileName n') = cacheFile w n
  · rw [if_pos hf] at hL
    rw [join_injective hf]
    exact ⟨k, (Option.some.inj hL).symm⟩
  · rw [if_neg hf] at hL
    exact h s n' L hL

theorem CacheOK.written {w : Disk} (h : CacheOK w) (n : ℕ) :
    CacheOK (written w n (encode (elements n)).length) := by
  intro s n' L hL
  rw [written_files] at hL
  by_cases hf : join s (fileName n') = cacheFile w n
  · rw [if_pos hf, List.take_length] at hL
    rw [join_injective hf]
    exact (Option.some.inj hL).symm
  · rw [if_neg hf] at hL
    exact h s n' L hL

theorem CacheOK.prefix {w : Disk} (h : CacheOK w) : PrefixOK w :=
  fun s n L hL => ⟨(encode (elements n)).length, by rw [h s n L hL, List.take_length]⟩

theorem PrefixOK.steps {w : Disk} (h : PrefixOK w) (n m : ℕ) :
    PrefixOK (Cache.steps m (getCoulombElements n, w)).2 := by
  rcases steps_get w n m with ⟨e, -⟩ | ⟨-, -, k, -, e⟩ <;> rw [e]
  · exact h
  · exact h.written n k

theorem PrefixOK.exec {w : Disk} (h : PrefixOK w) (n : ℕ) :
    PrefixOK (Cache.exec (getCoulombElements n) w).2 := by
  obtain ⟨m, hm⟩ := exec_steps (getCoulombElements n) w
  have := h.steps n m
  rwa [hm m le_rfl] at this

theorem CacheOK.exec {w : Disk} (h : CacheOK w) (n : ℕ) :
    CacheOK (Cache.exec (getCoulombElements n) w).2 := by
  cases he : w.env with
  | false => rw [exec_off he]; exact h
  | true =>
    cases hf : w.files (cacheFile w n) with
    | some L => rw [exec_load he hf]; exact h
    | none => rw [exec_save he hf]; exact h.written n

theorem PrefixOK.apply {w : Disk} (h : PrefixOK w) (e : Event) : PrefixOK (e.apply w) := by
  cases e with
  | setEnv b => exact h
  | setPath p => exact h
  | remove f =>
    intro s n L hL
    simp only [Event.apply, Function.update_apply] at hL
    by_cases hf : join s (fileName n) = f
    · rw [if_pos hf] at hL; cases hL
    · rw [if_neg hf] at hL; exact h s n L hL
  | call n => exact h.exec n
  | interrupted n m => exact h.steps n m

theorem CacheOK.apply {w : Disk} (h : CacheOK w) {e : Event} (he : ∀ n m, e ≠ .interrupted n m) :
    CacheOK (e.apply w) := by
  cases e with
  | setEnv b => exact h
  | setPath p => exact h
  | remove f =>
    intro s n L hL
    simp only [Event.apply, Function.update_apply] at hL
    by_cases hf : join s (fileName n) = f
    · rw [if_pos hf] at hL; cases hL
    · rw [if_neg hf] at hL; exact h s n L hL
  | call n => exact h.exec n
  | interrupted n m => exact absurd rfl (he n m)

theorem PrefixOK.history {w : Disk} (h : PrefixOK w) (es : List Event) : PrefixOK (history w es) := by
  induction es generalizing w with
  | nil => exact h
  | cons e es ih => exact ih (h.apply e)

theorem CacheOK.history {w : Disk} (h : CacheOK w) {es : List Event}
    (he : ∀ e ∈ es, ∀ n m, e ≠ .interrupted n m) : CacheOK (history w es) := by
  induction es generalizing w with
  | nil => exact h
  | cons e es ih =>
    exact ih (h.apply (he e (by simp))) (fun e' h' => he e' (by simp [h']))

/-- A call on a disk whose cache files are right. -/
theorem CacheOK.call {w : Disk} (h : CacheOK w) (n : ℕ) :
    (Cache.exec (getCoulombElements n) w).1 = .ok (elements n) := by
  cases he : w.env with
  | false => rw [exec_off he]
  | true =>
    cases hf : w.files (cacheFile w n) with
    | some L => rw [exec_load he hf, h _ _ _ hf, decode_encode]
    | none => rw [exec_save he hf]

end QS.Cache

namespace QS.Cache

/-! ## Several processes -/

/-- The part of `get_coulomb_elements` after the check of the environment variable. -/
noncomputable def sysProg (n : ℕ) : Prog (NDArray ℂ) :=
  .sysPath fun storage => .pathExists (join storage (fileName n)) fun ex =>
    if ex then load (join storage (fileName n))
    else save (join storage (fileName n)) (elements n) (.done (.ok (elements n)))

/-- The points a call can be at. -/
inductive Phase
  | start
  | sys
  | check (s : Path)
  | loading (s : Path)
  | saving (s : Path)
  | writing (s : Path) (k : ℕ)
  | done (r : Except PyErr (NDArray ℂ))

/-- The rest of a call of size `n` at a point. -/
noncomputable def Phase.prog (n : ℕ) : Phase → Prog (NDArray ℂ)
  | .start => getCoulombElements n
  | .sys => sysProg n
  | .check s => .pathExists (join s (fileName n)) fun ex =>
      if ex then load (join s (fileName n))
      else save (join s (fileName n)) (elements n) (.done (.ok (elements n)))
  | .loading s => load (join s (fileName n))
  | .saving s => save (join s (fileName n)) (elements n) (.done (.ok (elements n)))
  | .writing s k => writes (join s (fileName n)) k ((encode (elements n)).drop k) (.done (.ok (elements n)))
  | .done r => .done r

/-- What holds of the points of all calls and the disk, as long as no file is opened for writing twice. -/
structure Inv (ns : List ℕ) (phs : ℕ → Phase) (w : Disk) : Prop where
  result : ∀ i n, ns[i]? = some n → ∀ u, phs i = .done (.ok u) → u = elements n
  file : PrefixOK w
  writer : ∀ i n, ns[i]? = some n → ∀ s k, phs i = .writing s k →
    k < (encode (elements n)).length ∧ w.opened (join s (fileName n)) ≠ 0 ∧
      w.files (join s (fileName n)) = some ((encode (elements n)).take k)
  unique : ∀ i j n m, ns[i]? = some n → ns[j]? = some m → ∀ s k s' k', phs i = .writing s k →
    phs j = .writing s' k' → join s (fileName n) = join s' (fileName m) → i = j

/-- The point of a call after its next step. -/
noncomputable def Phase.next (n : ℕ) (w : Disk) : Phase → Phase
  | .start => if w.env = false then .done (.ok (elements n)) else .sys
  | .sys => .check w.sysPath0
  | .check s => if (w.files (join s (fileName n))).isSome then .loading s else .saving s
  | .loading s => .done (match w.files (join s (fileName n)) with
      | none => .error .os
      | some L => decode L)
  | .saving s => .writing s 0
  | .writing s k => if k + 1 < (encode (elements n)).length then .writing s (k + 1)
      else .done (.ok (elements n))
  | .done r => .done r

theorem encode_pos (a : NDArray ℂ) : 0 < (encode a).length := by simp [encode]

theorem writing_cons (n : ℕ) (s : Path) {k : ℕ} (hk : k < (encode (elements n)).length) :
    Phase.prog n (.writing s k) = .write (join s (fileName n)) k (encode (elements n))[k]
      (writes (join s (fileName n)) (k + 1) ((encode (elements n)).drop (k + 1)) (.done (.ok (elements n)))) := by
  show writes _ _ _ _ = _
  rw [List.drop_eq_getElem_cons hk]
  rfl

theorem step_prog (n : ℕ) (w : Disk) (ph : Phase)
    (hk : ∀ s k, ph = .writing s k → k < (encode (elements n)).length) :
    (step (ph.prog n, w)).1 = (ph.next n w).prog n := by
  cases ph with
  | start =>
    show (if w.env = false then _ else _) = _
    simp only [Phase.next]
    by_cases h : w.env = false
    · rw [if_pos h, if_pos h, raw_eq]; rfl
    · rw [if_neg h, if_neg h]
      simp only [raw_eq]
      rfl
  | sys => rfl
  | check s =>
    show (if _ then _ else _) = _
    simp only [Phase.next]
    cases (w.files (join s (fileName n))).isSome <;> rfl
  | loading s =>
    show (match w.files (join s (fileName n)) with | none => _ | some cells => _) = _
    simp only [Phase.next]
    cases w.files (join s (fileName n)) <;> rfl
  | saving s => rfl
  | writing s k =>
    have hk := hk s k rfl
    rw [writing_cons n s hk]
    show writes _ _ _ _ = _
    simp only [Phase.next]
    by_cases h : k + 1 < (encode (elements n)).length
    · rw [if_pos h]; rfl
    · rw [if_neg h, List.drop_eq_nil_of_le (by omega)]; rfl
  | done r => rfl

theorem step_opened {α : Type} (p : Prog α) (w : Disk) (f : Path) : w.opened f ≤ (step (p, w)).2.opened f := by
  cases p <;> try exact le_rfl
  rename_i g k
  show w.opened f ≤ Function.update w.opened g (w.opened g + 1) f
  rw [Function.update_apply]
  by_cases h : f = g
  · rw [if_pos h, h]; omega
  · rw [if_neg h]

theorem Inv.step {ns : List ℕ} {phs : ℕ → Phase} {w : Disk} (h : Inv ns phs w) {i n : ℕ}
    (hi : ns[i]? = some n)
    (ho : ∀ f, (Cache.step ((phs i).prog n, w)).2.opened f ≤ 1) :
    Inv ns (Function.update phs i ((phs i).next n w)) (Cache.step ((phs i).prog n, w)).2 := by
  have same : ∀ w', (Cache.step ((phs i).prog n, w)).2 = w' → w' = w →
      (∀ s k, (phs i).next n w ≠ .writing s k) →
      (∀ u, (phs i).next n w = .done (.ok u) → u = elements n) →
      Inv ns (Function.update phs i ((phs i).next n w)) (Cache.step ((phs i).prog n, w)).2 := by
    rintro w' hw' rfl hnw hres
    rw [hw']
    refine ⟨?_, h.file, ?_, ?_⟩
    · intro j m hj u hu
      rw [Function.update_apply] at hu
      by_cases hji : j = i
      · rw [if_pos hji] at hu
        subst hji
        rw [hi] at hj
        cases hj
        exact hres u hu
      · rw [if_neg hji] at hu
        exact h.result j m hj u hu
    · intro j m hj s k hs
      rw [Function.update_apply] at hs
      by_cases hji : j = i
      · rw [if_pos hji] at hs
        exact absurd hs (hnw s k)
      · rw [if_neg hji] at hs
        exact h.writer j m hj s k hs
    · intro j j' m m' hj hj' s k s' k' hs hs' hf
      rw [Function.update_apply] at hs hs'
      by_cases hji : j = i
      · rw [if_pos hji] at hs
        exact absurd hs (hnw s k)
      · by_cases hji' : j' = i
        · rw [if_pos hji'] at hs'
          exact absurd hs' (hnw s' k')
        · rw [if_neg hji] at hs
          rw [if_neg hji'] at hs'
          exact h.unique j j' m m' hj hj' s k s' k' hs hs' hf
  cases hph : phs i with
  | start =>
    rw [← hph]
    refine same w (by rw [hph]; rfl) rfl ?_ ?_ <;> rw [hph] <;> simp only [Phase.next]
    · intro s k; split_ifs <;> simp
    · intro u; split_ifs <;> simp
      rintro rfl; rfl
  | sys =>
    rw [← hph]
    refine same w (by rw [hph]; rfl) rfl ?_ ?_ <;> rw [hph] <;> simp [Phase.next]
  | check s =>
    rw [← hph]
    refine same w (by rw [hph]; rfl) rfl ?_ ?_ <;> rw [hph] <;> simp only [Phase.next]
    · intro s k; split_ifs <;> simp
    · intro u; split_ifs <;> simp
  | loading s =>
    rw [← hph]
    refine same w (by rw [hph]; rfl) rfl ?_ ?_ <;> rw [hph] <;> simp only [Phase.next]
    · intro s k; simp
    · intro u hu
      have hu := Phase.done.inj hu
      cases hf : w.files (join s (fileName n)) with
      | none => rw [hf] at hu; cases hu
      | some L =>
        rw [hf] at hu
        obtain ⟨k, rfl⟩ := h.file s n L hf
        by_cases hk : k < (encode (elements n)).length
        · change decode _ = _ at hu
          rw [decode_truncated _ hk] at hu
          cases hu
        · change decode _ = _ at hu
          rw [List.take_of_length_le (by omega), decode_encode] at hu
          exact (Except.ok.inj hu).symm
  | done r =>
    rw [← hph]
    refine same w (by rw [hph]; rfl) rfl ?_ ?_ <;> rw [hph] <;> simp only [Phase.next]
    · simp
    · intro u hu
      exact h.result i n hi u (hph.trans hu)
  | saving s =>
    set f := join s (fileName n) with hf
    have hw : (Cache.step ((Phase.saving s).prog n, w)).2 = createFile w f := rfl
    rw [hph, hw] at ho
    have h0 : w.opened f = 0 := by
      have := ho f
      simp only [createFile, Function.update_self] at this
      omega
    have hnow : ∀ j m, ns[j]? = some m → ∀ s' k, phs j = .writing s' k → join s' (fileName m) ≠ f := by
      intro j m hj s' k hs' e
      have := (h.writer j m hj s' k hs').2.1
      rw [e] at this
      exact this h0
    rw [hw]
    show Inv ns (Function.update phs i (.writing s 0)) _
    refine ⟨?_, ?_, ?_, ?_⟩
    · intro j m hj u hu
      rw [Function.update_apply] at hu
      by_cases hji : j = i
      · rw [if_pos hji] at hu; cases hu
      · rw [if_neg hji] at hu; exact h.result j m hj u hu
    · intro s' m L hL
      simp only [createFile, Function.update_apply] at hL
      by_cases e : join s' (fileName m) = f
      · rw [if_pos e] at hL
        exact ⟨0, by rw [← Option.some.inj hL]; rfl⟩
      · rw [if_neg e] at hL
        exact h.file s' m L hL
    · intro j m hj s' k hs'
      rw [Function.update_apply] at hs'
      by_cases hji : j = i
      · rw [if_pos hji] at hs'
        obtain ⟨rfl, rfl⟩ := Phase.writing.inj hs'
        subst hji
        rw [hi] at hj
        cases hj
        refine ⟨encode_pos _, ?_, ?_⟩
        · simp only [createFile]; rw [← hf]; simp
        · simp only [createFile]; rw [← hf]; simp
      · rw [if_neg hji] at hs'
        have h1 := hnow j m hj s' k hs'
        obtain ⟨h2, h3, h4⟩ := h.writer j m hj s' k hs'
        refine ⟨h2, ?_, ?_⟩
        · simpa [createFile, Function.update_apply, h1] using h3
        · simpa [createFile, Function.update_apply, h1] using h4
    · intro j j' m m' hj hj' s1 k1 s2 k2 hs1 hs2 e
      rw [Function.update_apply] at hs1 hs2
      by_cases hji : j = i
      · by_cases hji' : j' = i
        · rw [hji, hji']
        · rw [if_pos hji] at hs1
          rw [if_neg hji'] at hs2
          obtain ⟨rfl, rfl⟩ := Phase.writing.inj hs1
          subst hji
          rw [hi] at hj
          cases hj
          exact absurd e.symm (hnow j' m' hj' s2 k2 hs2)
      · by_cases hji' : j' = i
        · rw [if_pos hji'] at hs2
          rw [if_neg hji] at hs1
          obtain ⟨rfl, rfl⟩ := Phase.writing.inj hs2
          subst hji'
          rw [hi] at hj'
          cases hj'
          exact absurd e (hnow j m hj s1 k1 hs1)
        · rw [if_neg hji] at hs1
          rw [if_neg hji'] at hs2
          exact h.unique j j' m m' hj hj' s1 k1 s2 k2 hs1 hs2 e
  | writing s k =>
    set f := join s (fileName n) with hf
    obtain ⟨hk, hop, hfile⟩ := h.writer i n hi s k hph
    have hw : (Cache.step ((Phase.writing s k).prog n, w)).2
        = setFile w f ((encode (elements n)).take (k + 1)) := by
      rw [writing_cons n s hk]
      show writeFile w f k _ = _
      have := writeFile_end hfile (encode (elements n))[k]
      rw [List.length_take, min_eq_left hk.le] at this
      rw [this, List.take_succ_eq_append_getElem hk]
    have hnow : ∀ j m, j ≠ i → ns[j]? = some m → ∀ s' k, phs j = .writing s' k →
        join s' (fileName m) ≠ f := by
      intro j m hji hj s' k' hs' e
      exact hji (h.unique j i m n hj hi s' k' s k hs' hph e)
    rw [hw]
    refine ⟨?_, ?_, ?_, ?_⟩
    · intro j m hj u hu
      rw [Function.update_apply] at hu
      by_cases hji : j = i
      · rw [if_pos hji] at hu
        subst hji
        rw [hi] at hj
        cases hj
        simp only [Phase.next] at hu
        split_ifs at hu
        exact (Except.ok.inj (Phase.done.inj hu)).symm
      · rw [if_neg hji] at hu; exact h.result j m hj u hu
    · intro s' m L hL
      simp only [setFile, Function.update_apply] at hL
      by_cases e : join s' (fileName m) = f
      · rw [if_pos e] at hL
        rw [join_injective (e.trans hf)]
        exact ⟨k + 1, (Option.some.inj hL).symm⟩
      · rw [if_neg e] at hL
        exact h.file s' m L hL
    · intro j m hj s' k' hs'
      rw [Function.update_apply] at hs'
      by_cases hji : j = i
      · rw [if_pos hji] at hs'
        subst hji
        rw [hi] at hj
        cases hj
        simp only [Phase.next] at hs'
        split_ifs at hs' with hlt
        obtain ⟨rfl, rfl⟩ := Phase.writing.inj hs'
        refine ⟨hlt, hop, ?_⟩
        simp only [setFile]; rw [← hf]; simp
      · rw [if_neg hji] at hs'
        have h1 := hnow j m hji hj s' k' hs'
        obtain ⟨h2, h3, h4⟩ := h.writer j m hj s' k' hs'
        refine ⟨h2, h3, ?_⟩
        simpa [setFile, Function.update_apply, h1] using h4
    · intro j j' m m' hj hj' s1 k1 s2 k2 hs1 hs2 e
      have next_s : ∀ s1 k1, (Phase.writing s k).next n w = .writing s1 k1 → s1 = s := by
        intro s1 k1 e
        simp only [Phase.next] at e
        split_ifs at e
        exact (Phase.writing.inj e).1.symm
      rw [Function.update_apply] at hs1 hs2
      by_cases hji : j = i
      · by_cases hji' : j' = i
        · rw [hji, hji']
        · rw [if_pos hji] at hs1
          rw [if_neg hji'] at hs2
          have := next_s _ _ hs1
          subst this
          subst hji
          rw [hi] at hj
          cases hj
          exact absurd e.symm (hnow j' m' hji' hj' s2 k2 hs2)
      · by_cases hji' : j' = i
        · rw [if_pos hji'] at hs2
          rw [if_neg hji] at hs1
          have := next_s _ _ hs2
          subst this
          subst hji'
          rw [hi] at hj'
          cases hj'
          exact absurd e (hnow j m hji hj s1 k1 hs1)
        · rw [if_neg hji] at hs1
          rw [if_neg hji'] at hs2
          exact h.unique j j' m m' hj hj' s1 k1 s2 k2 hs1 hs2 e

theorem schedule_opened {α : Type} (is : List ℕ) (ps : List (Prog α)) (w : Disk) (f : Path) :
    w.opened f ≤ (schedule is (ps, w)).2.opened f := by
  induction is generalizing ps w with
  | nil => exact le_rfl
  | cons i is ih =>
    unfold schedule
    cases ps[i]? with
    | none => exact ih ps w
    | some p => exact (step_opened p w f).trans (ih _ _)

/-- The invariant holds after every schedule that opens no file for writing twice. -/
theorem Inv.schedule {ns : List ℕ} (is : List ℕ) {phs : ℕ → Phase} {ps : List (Prog (NDArray ℂ))} {w : Disk}
    (h : Inv ns phs w) (hps : ∀ i, ps[i]? = (ns[i]?).map fun n => (phs i).prog n)
    (ho : ∀ f, (Cache.schedule is (ps, w)).2.opened f ≤ 1) :
    ∃ phs', Inv ns phs' (Cache.schedule is (ps, w)).2 ∧
      ∀ i, (Cache.schedule is (ps, w)).1[i]? = (ns[i]?).map fun n => (phs' i).prog n := by
  induction is generalizing phs ps w with
  | nil => exact ⟨phs, h, hps⟩
  | cons i is ih =>
    unfold Cache.schedule at ho ⊢
    cases hn : ns[i]? with
    | none =>
      have : ps[i]? = none := by rw [hps, hn]; rfl
      rw [this] at ho ⊢
      exact ih h hps ho
    | some n =>
      have hpi : ps[i]? = some ((phs i).prog n) := by rw [hps, hn]; rfl
      rw [hpi] at ho ⊢
      refine ih (phs := Function.update phs i ((phs i).next n w))
        (h.step hn fun f => (schedule_opened is _ _ f).trans (ho f)) ?_ ho
      intro j
      rw [List.getElem?_set]
      by_cases hji : i = j
      · subst hji
        have hlt : i < ps.length := (List.getElem?_eq_some_iff.1 hpi).1
        rw [if_pos rfl, if_pos hlt, hn, Function.update_self]
        show some _ = some _
        rw [step_prog n w _ fun s k hs => (h.writer i n hn s k hs).1]
      · rw [if_neg hji, hps, Function.update_of_ne (fun e => hji e.symm)]

theorem done_phase {n : ℕ} {ph : Phase} {u : NDArray ℂ} (hk : ∀ s k, ph = .writing s k →
    k < (encode (elements n)).length) (h : ph.prog n = .done (.ok u)) : ph = .done (.ok u) := by
  cases ph with
  | writing s k => rw [writing_cons n s (hk s k rfl)] at h; cases h
  | done r => exact congrArg _ (Prog.done.inj h)
  | _ => cases h

theorem schedule_append {α : Type} (is js : List ℕ) (s : List (Prog α) × Disk) :
    schedule (is ++ js) s = schedule js (schedule is s) := by
  induction is generalizing s with
  | nil => rfl
  | cons i is ih =>
    obtain ⟨ps, w⟩ := s
    rw [List.cons_append]
    cases h : ps[i]? with
    | none => simp only [schedule, h]; exact ih _
    | some p => simp only [schedule, h]; exact ih _

/-- A process that makes several steps in a row. -/
theorem schedule_replicate {α : Type} (m i : ℕ) {ps : List (Prog α)} {p : Prog α} (w : Disk)
    (h : ps[i]? = some p) :
    schedule (List.replicate m i) (ps, w) = (ps.set i (steps m (p, w)).1, (steps m (p, w)).2) := by
  obtain ⟨hi, rfl⟩ := List.getElem?_eq_some_iff.1 h
  induction m generalizing ps w with
  | zero => simp [schedule, steps]
  | succ m ih =>
    rw [List.replicate_succ]
    unfold schedule
    rw [h]
    dsimp only
    rw [ih _ (by simp [hi]) (by simp [hi])]
    simp [steps]

end QS.Cache
