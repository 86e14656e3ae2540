import Verif.Model.Attributes
import Verif.Lemmas.SharedBasis
import Verif.Lemmas.Persistence
import Verif.Lemmas.Laser
import Verif.Spec.DemoSystem

/-! # C155: attributes of systems -/

namespace QS.Props

open NDArray PyM BasisSet World Demo

variable {K T : Type} [PyScalar K]

/-! ## C155 -/

/-- The value of an attribute of a basis set.  The dual functions are the conjugates of the functions if none were
assigned. -/
def attrOf (b : BasisSet K) : SysAttr → AttrVal K
  | .grid => .array b.grid
  | .h => .array b.h
  | .u => .array b.u
  | .s => .array b.s
  | .dipole => .array b.dipole
  | .spf => .array b.spf
  | .bra => .array (match b.braSpf with
    | some x => some x
    | none => b.spf.map NDArray.conj)
  | .nre => .number b.nre
  | .spinX => .array b.spinX
  | .spinY => .array b.spinY
  | .spinZ => .array b.spinZ
  | .spin2 => .array b.spin2
  | .spin2tb => .array b.spin2tb

theorem basis_attribute (b : BasisSet K) (name : SysAttr) :
    (BasisSet.readAttr name).run b = (.ok (attrOf b name), if name = .bra then withBra b else b) := by
  cases name <;> first | rfl | skip
  show ((getBra >>= fun x => pure (AttrVal.array x)) : PyM (BasisSet K) (AttrVal K)).run b = _
  rw [run_bind_ok (getBra_run b)]
  show (Except.ok (AttrVal.array b.bra), withBra b) = _
  rw [if_pos rfl]
  unfold attrOf BasisSet.bra
  cases b.braSpf <;> cases b.spf <;> rfl

theorem attrOf_withBra (b : BasisSet K) (name : SysAttr) : attrOf (withBra b) name = attrOf b name := by
  cases name <;> first | rfl | skip
  unfold attrOf withBra BasisSet.bra
  cases b.braSpf <;> cases b.spf <;> rfl

/-- **C155** (values) An attribute of a system is the current attribute of its basis set object: systems with the
same basis set object report the same.  Only a `SpatialOrbitalSystem` has no spin operators (`AttributeError`),
whatever its basis set holds. -/
theorem C155_values {w : World K T} {s : ℕ} {x : Sys} {b : BasisSet K} (hx : w.systems[s]? = some x)
    (hb : w.bases[x.basis]? = some b) (name : SysAttr) :
    ((World.readAttr s name).run w).1 =
      if x.kind = .spatial ∧ name ∈ [.spinX, .spinY, .spinZ, .spin2, .spin2tb] then .error .attribute
      else .ok (attrOf b name) := by
  unfold World.readAttr
  rw [run_bind_ok (getSys_run hx)]
  rcases hk : x.kind with _ | _
  · simp only [onBasis_run hb, basis_attribute, reduceCtorEq, false_and, if_false]
  · cases name <;> simp [SysAttr.generalOnly, onBasis_run hb, basis_attribute] <;> rfl

/-- What reading does to the objects. -/
theorem attribute_state (w : World K T) (s : ℕ) (name : SysAttr) :
    ((World.readAttr s name).run w).2 = w ∨
    ∃ r c, w.bases[r]? = some c ∧ ((World.readAttr s name).run w).2 = { w with bases := w.bases.set r (withBra c) } := by
  have on : ∀ r, ((onBasis r (BasisSet.readAttr name)).run w).2 = w ∨ ∃ q c, w.bases[q]? = some c ∧
      ((onBasis r (BasisSet.readAttr name)).run w).2 = { w with bases := w.bases.set q (withBra c) } := fun r => by
    rcases hr : w.bases[r]? with _ | c
    · exact .inl (by simp only [PyM.run, onBasis, hr])
    · rw [onBasis_run hr, basis_attribute]
      by_cases hn : name = .bra
      · exact .inr ⟨r, c, hr, by rw [if_pos hn]⟩
      · exact .inl (by rw [if_neg hn, set_same hr])
  unfold World.readAttr
  rcases hx : w.systems[s]? with _ | x
  · refine .inl ?_
    have : (getSys s).run w = (.error .name, w) := by simp [getSys, PyM.run_bind, hx, orErr]
    rw [run_bind_error this]
  rw [run_bind_ok (getSys_run hx)]
  rcases x.kind with _ | _
  · exact on _
  · simp only
    split_ifs
    · exact .inl rfl
    · exact on _

/-- The objects after attributes were read, each of the system it is paired with. -/
def readAll (w : World K T) (reads : List (ℕ × SysAttr)) : World K T :=
  reads.foldl (fun w r => ((World.readAttr r.1 r.2).run w).2) w

/-- **C155** (reading) Reading attributes of any systems, any number of times in any order, changes nothing that any
system reports (although the first reading of `bra_spf` stores an array). -/
theorem C155_reading {w : World K T} (hw : w.Sound) (reads : List (ℕ × SysAttr)) {j : ℕ}
    (hj : j < w.systems.length) :
    SameReports w j (readAll w reads) j ∧
    ∀ name, ((World.readAttr j name).run (readAll w reads)).1 =
      ((World.readAttr j name).run w).1 := by
  obtain ⟨x, hx⟩ : ∃ x, w.systems[j]? = some x := ⟨_, List.getElem?_eq_getElem hj⟩
  -- the objects after reading
  have key : ∀ w' : World K T, w'.systems = w.systems → w'.ops = w.ops →
      (∀ (r : ℕ) (c : BasisSet K), w.bases[r]? = some c → w'.bases[r]? = some c ∨ w'.bases[r]? = some (withBra c)) →
      (readAll w' reads).systems = w.systems ∧
      (readAll w' reads).ops = w.ops ∧
      ∀ (r : ℕ) (c : BasisSet K), w.bases[r]? = some c →
        (readAll w' reads).bases[r]? = some c ∨
        (readAll w' reads).bases[r]? = some (withBra c) := by
    induction reads with
    | nil => exact fun w' h1 h2 h3 => ⟨h1, h2, h3⟩
    | cons e reads ih =>
      intro w' h1 h2 h3
      refine ih _ ?_ ?_ ?_
      all_goals rcases attribute_state w' e.1 e.2 with h | ⟨q, d, hq, h⟩ <;> simp only [h]
      · exact h1
      · exact h1
      · exact h2
      · exact h2
      · exact h3
      · intro r c hc
        by_cases e : r = q
        · subst e
          rw [get_set hq]
          rcases h3 r c hc with h | h <;> rw [h] at hq <;> obtain rfl := Option.some.inj hq
          · exact .inr rfl
          · exact .inr (by rw [withBra_idem])
        · rw [get_set_ne e]; exact h3 r c hc
  obtain ⟨h1, h2, h3⟩ := key w rfl rfl fun r c h => .inl h
  generalize readAll w reads = w' at h1 h2 h3 ⊢
  constructor
  · refine sameReports_map (J := fun i => i < w.systems.length) (f := id) (g := id) (k := id) (fun i hi => ?_) hj
    obtain ⟨x, hx⟩ : ∃ x, w.systems[i]? = some x := ⟨_, List.getElem?_eq_getElem hi⟩
    obtain ⟨d, hd⟩ := hw.closed.basis i x hx
    refine ⟨x, hx, by rw [h1]; simpa using hx, ⟨d, hd, ?_⟩, fun o ho => ?_⟩
    · rcases h3 _ d hd with h | h
      · exact ⟨_, h, .inl rfl⟩
      · exact ⟨_, h, .inr rfl⟩
    · obtain ⟨y, hy⟩ := hw.closed.op i x o hx ho
      refine ⟨y, hy, by rw [h2]; simpa using hy, fun q hq => ?_⟩
      obtain ⟨z, hz⟩ := hw.closed.sys o y q hy hq
      exact lt_of_get hz
  · intro name
    obtain ⟨d, hd⟩ := hw.closed.basis j x hx
    have hx' : w'.systems[j]? = some x := by rw [h1]; exact hx
    rcases h3 _ d hd with h | h
    · rw [C155_values hx hd, C155_values hx' h]
    · rw [C155_values hx hd, C155_values hx' h, attrOf_withBra]

/-- A spatial system of `Demo.world` reports its one-body elements and has no `spin_x`; a general one reports
`None`. -/
example : ((World.readAttr 0 .h).run Demo.world).1 = .ok (.array Demo.basis.h) ∧
    ((World.readAttr 0 .spinX).run Demo.world).1 = .error .attribute ∧
    ((World.readAttr 0 .spinX).run Demo.gworld).1 = .ok (.array Demo.basis.spinX) :=
  ⟨C155_values world_ok.sys world_ok.basis .h, C155_values world_ok.sys world_ok.basis .spinX,
    C155_values gworld_ok.sys gworld_ok.basis .spinX⟩

end QS.Props
