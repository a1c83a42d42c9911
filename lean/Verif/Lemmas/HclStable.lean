import Verif.Lemmas.HclBack
import Verif.Spec.Convert
set_option linter.unusedSimpArgs false
/-! Data that came back can be written again. -/
namespace Verif.Hcl
open Det (insertK ltB)

theorem okBody_iff {m : List (Bytes × GV)} : okBody m ↔
    (m.map Prod.fst).Nodup ∧ ∀ e ∈ m, (IsIdent e.1 ∧ e.1 ≠ nmr) ∧ okLine 0 e.2 := by
  induction m with
  | nil => simp [okBody]
  | cons e m ih =>
    obtain ⟨k, v⟩ := e
    simp only [okBody, ih, List.map_cons, List.nodup_cons, List.forall_mem_cons]
    tauto

theorem okLabels_iff {d : Nat} {m : List (Bytes × GV)} : okLabels d m ↔ ∀ e ∈ m, SafeStr e.1 ∧ okLine (d + 1) e.2 := by
  induction m with
  | nil => simp [okLabels]
  | cons e m ih =>
    obtain ⟨k, v⟩ := e
    simp only [okLabels, ih, List.forall_mem_cons]
    tauto

theorem okObj_iff {m : List (Bytes × GV)} : okObj m ↔ ∀ e ∈ m, (IsIdent e.1 ∧ e.1 ≠ b "for") ∧ okMember e.2 := by
  induction m with
  | nil => simp [okObj]
  | cons e m ih =>
    obtain ⟨k, v⟩ := e
    simp only [okObj, ih, List.forall_mem_cons]
    tauto

theorem okFlat_iff {m : List (Bytes × GV)} : okFlat m ↔ ∀ e ∈ m, (IsIdent e.1 ∧ e.1 ≠ b "for") ∧ okLeaf e.2 := by
  induction m with
  | nil => simp [okFlat]
  | cons e m ih =>
    obtain ⟨k, v⟩ := e
    simp only [okFlat, ih, List.forall_mem_cons]
    tauto

theorem exactM_iff {nfc : Bytes → Bytes} {m : List (Bytes × GV)} : exactM nfc m ↔ ∀ e ∈ m, exact nfc e.2 := by
  induction m with
  | nil => simp [exactM]
  | cons e m ih => obtain ⟨k, v⟩ := e; simp only [exactM, ih, List.forall_mem_cons]

theorem uniformM_iff {m : List (Bytes × GV)} : uniformM m ↔ ∀ e ∈ m, uniform 0 e.2 := by
  induction m with
  | nil => simp [uniformM]
  | cons e m ih => obtain ⟨k, v⟩ := e; simp only [uniformM, ih, List.forall_mem_cons]

theorem uniformL_iff {d : Nat} {m : List (Bytes × GV)} : uniformL d m ↔ ∀ e ∈ m, uniform (d + 1) e.2 := by
  induction m with
  | nil => simp [uniformL]
  | cons e m ih => obtain ⟨k, v⟩ := e; simp only [uniformL, ih, List.forall_mem_cons]

theorem noEmptyM_iff {m : List (Bytes × GV)} : noEmptyM m ↔ ∀ e ∈ m, noEmpty e.2 := by
  induction m with
  | nil => simp [noEmptyM]
  | cons e m ih => obtain ⟨k, v⟩ := e; simp only [noEmptyM, ih, List.forall_mem_cons]

theorem mem_canonM {m : List (Bytes × GV)} (hn : (m.map Prod.fst).Nodup) {e : Bytes × GV} :
    e ∈ canonM m ↔ ∃ v, (e.1, v) ∈ m ∧ e.2 = v.canon := by
  obtain ⟨k, w⟩ := e
  constructor
  · intro h
    have h' := GoMap.mem_get? (sorted_canonM m).nodup h
    rw [get?_canonM] at h'
    obtain ⟨v, hv, e⟩ := Option.map_eq_some_iff.1 h'
    exact ⟨v, GoMap.get?_mem hv, e.symm⟩
  · rintro ⟨v, hv, e⟩
    simp only at hv e
    subst e
    refine GoMap.get?_mem ?_
    rw [get?_canonM, GoMap.mem_get? hn hv]; rfl

theorem isMap_canon (v : GV) : v.canon.isMap = v.isMap := by
  cases v with
  | flt q => simp only [GV.canon]; split <;> rfl
  | list l => simp only [GV.canon, mkList]; split <;> rfl
  | _ => rfl

theorem byLabels_eq (d : Nat) (m : List (Bytes × GV)) :
    byLabels d m = (!m.isEmpty && m.all (fun e => e.2.isMap) && decide (d < 2)) := by
  unfold byLabels
  congr 2

theorem byLabels_canon (d : Nat) {m : List (Bytes × GV)} (hn : (m.map Prod.fst).Nodup) :
    byLabels d (canonM m) = byLabels d m := by
  have h1 : (canonM m).isEmpty = m.isEmpty := by
    cases m with
    | nil => rfl
    | cons e m =>
      have := canonM_ne_nil (m := e :: m) (by simp)
      cases h : canonM (e :: m) with
      | nil => exact absurd h this
      | cons _ _ => rfl
  have h2 : (canonM m).all (fun e => e.2.isMap) = m.all (fun e => e.2.isMap) := by
    rw [Bool.eq_iff_iff, List.all_eq_true, List.all_eq_true]
    constructor
    · rintro h ⟨k, v⟩ he
      have := h (k, v.canon) ((mem_canonM hn).2 ⟨v, he, rfl⟩)
      simpa only [isMap_canon] using this
    · rintro h ⟨k, w⟩ he
      obtain ⟨v, hv, e⟩ := (mem_canonM hn).1 he
      simp only at hv e
      subst e
      simpa only [isMap_canon] using h (k, v) hv
  rw [byLabels_eq, byLabels_eq, h1, h2]

theorem labelled_canon {nfc : Bytes → Bytes} (d : Nat) {v : GV} (he : exact nfc v) : v.canon.labelled d = v.labelled d := by
  cases v with
  | map m => simp only [exact] at he; simp only [GV.canon, GV.labelled, byLabels_canon d he.2]
  | flt q => simp only [GV.canon]; split <;> rfl
  | list l => simp only [GV.canon, mkList]; split <;> rfl
  | _ => rfl

theorem flt_canon {P : GV → Prop} {q : Rat} (hi : ∀ n : Int, q = n → P (.int n)) (hf : P (.flt q)) : P (GV.flt q).canon := by
  simp only [GV.canon]
  split
  · rename_i h; exact hi _ ((Rat.den_eq_one_iff q).1 h).symm
  · exact hf

theorem canonL_ne_nil {l : List GV} (h : l ≠ []) : mkList (canonL l) = .list (canonL l) := by
  cases l with
  | nil => exact absurd rfl h
  | cons v l => simp [canonL, mkList]

/-- What is kept by `canon`. -/
structure Kept (nfc : Bytes → Bytes) (v : GV) : Prop where
  exact : exact nfc v.canon
  full : noEmpty v.canon
  nonzero : NonZero v → NonZero v.canon
  elem : okElem v → okElem v.canon
  member : okMember v → okMember v.canon
  leaf : okLeaf v → okLeaf v.canon
  line : ∀ d, okLine d v → okLine d v.canon
  uniform : ∀ d, uniform d v → uniform d v.canon

theorem nodup_canonM (m : List (Bytes × GV)) : ((canonM m).map Prod.fst).Nodup := (sorted_canonM m).nodup

variable {nfc : Bytes → Bytes}

mutual
theorem kept : ∀ v : GV, exact nfc v → noEmpty v → Kept nfc v
  | .nil, h, n => ⟨h, n, id, id, id, id, fun _ => id, fun _ => id⟩
  | .nilList, h, n => ⟨h, n, id, id, id, id, fun _ => id, fun _ => id⟩
  | .nilMap, h, n => ⟨h, n, id, id, id, id, fun _ => id, fun _ => id⟩
  | .str _, h, n => ⟨h, n, id, id, id, id, fun _ => id, fun _ => id⟩
  | .bool _, h, n => ⟨h, n, id, id, id, id, fun _ => id, fun _ => id⟩
  | .int _, h, n => ⟨h, n, id, id, id, id, fun _ => id, fun _ => id⟩
  | .flt q, h, n => by
    refine ⟨flt_canon ?_ h, flt_canon (fun _ _ => trivial) n, fun hz => flt_canon ?_ hz, ?_, ?_, ?_, ?_, ?_⟩
    · intro n e
      simp only [Verif.Hcl.exact, ExactNum] at h ⊢
      rcases h with h | ⟨-, h, -⟩
      · rw [← e]; exact h
      · exact absurd ⟨n, e⟩ h
    · intro n e
      simp only [NonZero] at hz ⊢
      rintro rfl; exact hz (by simpa using e)
    · exact fun _ => flt_canon (fun _ _ => trivial) trivial
    · exact fun _ => flt_canon (fun _ _ => trivial) trivial
    · exact fun _ => flt_canon (fun _ _ => trivial) trivial
    · exact fun _ _ => flt_canon (fun _ _ => trivial) trivial
    · exact fun _ _ => flt_canon (fun _ _ => trivial) trivial
  | .list l, h, n => by
    simp only [Verif.Hcl.exact] at h
    simp only [noEmpty] at n
    obtain ⟨k1, k2, k3⟩ := keptL l h n.2
    have hne : canonL l ≠ [] := by
      cases l with
      | nil => exact absurd rfl n.1
      | cons v l => simp [canonL]
    constructor <;> simp only [GV.canon, canonL_ne_nil n.1]
    · exact k1
    · exact ⟨hne, k2⟩
    · exact id
    · exact k3
    · exact k3
    · exact k3
    · exact fun _ => k3
    · exact fun _ _ => trivial
  | .map m, h, n => by
    simp only [Verif.Hcl.exact] at h
    simp only [noEmpty] at n
    have hk := keptM m h.1 n
    have hmem : ∀ {P : Bytes × GV → Prop}, (∀ k v, (k, v) ∈ m → P (k, v.canon)) → ∀ e ∈ canonM m, P e := by
      rintro P hP ⟨k, w⟩ he
      obtain ⟨v, hv, e⟩ := (mem_canonM h.2).1 he
      simp only at hv e
      subst e
      exact hP k v hv
    have hflat : okFlat m → okFlat (canonM m) := fun ho =>
      okFlat_iff.2 (hmem fun k v hv => ⟨(okFlat_iff.1 ho _ hv).1, (hk _ hv).leaf (okFlat_iff.1 ho _ hv).2⟩)
    have hobj : okObj m → okObj (canonM m) := fun ho =>
      okObj_iff.2 (hmem fun k v hv => ⟨(okObj_iff.1 ho _ hv).1, (hk _ hv).member (okObj_iff.1 ho _ hv).2⟩)
    have hbody : okBody m → okBody (canonM m) := fun ho =>
      okBody_iff.2 ⟨nodup_canonM m, hmem fun k v hv =>
        ⟨((okBody_iff.1 ho).2 _ hv).1, (hk _ hv).line 0 ((okBody_iff.1 ho).2 _ hv).2⟩⟩
    constructor <;> simp only [GV.canon]
    · exact ⟨exactM_iff.2 (hmem fun k v hv => (hk _ hv).exact), nodup_canonM m⟩
    · exact noEmptyM_iff.2 (hmem fun k v hv => (hk _ hv).full)
    · exact id
    · exact hobj
    · exact hflat
    · exact id
    · intro d
      simp only [okLine, byLabels_canon d h.2]
      exact fun ho => ⟨fun hb => okLabels_iff.2 (hmem fun k v hv =>
        ⟨(okLabels_iff.1 (ho.1 hb) _ hv).1, (hk _ hv).line _ (okLabels_iff.1 (ho.1 hb) _ hv).2⟩), fun hb => hbody (ho.2 hb)⟩
    · intro d
      simp only [Verif.Hcl.uniform, byLabels_canon d h.2]
      refine fun ho => ⟨fun hb => ⟨uniformL_iff.2 (hmem fun k v hv => (hk _ hv).uniform _ (uniformL_iff.1 (ho.1 hb).1 _ hv)), ?_⟩,
        fun hb => uniformM_iff.2 (hmem fun k v hv => (hk _ hv).uniform _ (uniformM_iff.1 (ho.2 hb) _ hv))⟩
      have hx : ∀ k v, (k, v) ∈ m → v.canon.labelled (d + 1) = v.labelled (d + 1) :=
        fun k v hv => labelled_canon _ (exactM_iff.1 h.1 _ hv)
      rcases (ho.1 hb).2 with ha | ha
      · exact .inl (hmem fun k v hv => by rw [hx k v hv]; exact ha _ hv)
      · exact .inr (hmem fun k v hv => by rw [hx k v hv]; exact ha _ hv)
theorem keptL : ∀ l : List GV, exactL nfc l → noEmptyL l →
    exactL nfc (canonL l) ∧ noEmptyL (canonL l) ∧ (okElems l → okElems (canonL l))
  | [], _, _ => ⟨trivial, trivial, id⟩
  | v :: l, h, n => by
    simp only [exactL] at h
    simp only [noEmptyL] at n
    have k := kept v h.2.1 n.1
    obtain ⟨k1, k2, k3⟩ := keptL l h.2.2 n.2
    simp only [canonL, exactL, noEmptyL, okElems]
    exact ⟨⟨k.nonzero h.1, k.exact, k1⟩, ⟨k.full, k2⟩, fun ho => ⟨k.elem ho.1, k3 ho.2⟩⟩
theorem keptM : ∀ m : List (Bytes × GV), exactM nfc m → noEmptyM m → ∀ e ∈ m, Kept nfc e.2
  | [], _, _ => by simp
  | (k, v) :: m, h, n => by
    simp only [exactM] at h
    simp only [noEmptyM] at n
    have k1 := kept v h.1 n.1
    have k2 := keptM m h.2 n.2
    intro e he
    rcases List.mem_cons.1 he with rfl | he
    · exact k1
    · exact k2 e he
end

/-- Writing and reading twice is like doing it once. -/
theorem canon_canon {v : GV} (h : exact nfc v) : v.canon.canon = v.canon := (Same.canon v v.canon (same_canon nfc v h)).symm

end Verif.Hcl
