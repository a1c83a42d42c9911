import Verif.Lemmas.HclStable
import Verif.Props.Convert
import Verif.Spec.Cycle
set_option linter.unusedSimpArgs false
/-! Data of the same JSON value is written alike. -/
namespace Verif.Hcl
open Det (insertK ltB)

theorem untypedM_iff {m : List (Bytes × GV)} : untypedM m ↔ ∀ e ∈ m, untyped e.2 := by
  induction m with
  | nil => simp [untypedM]
  | cons e m ih => obtain ⟨k, v⟩ := e; simp only [untypedM, ih, List.forall_mem_cons]

theorem distinctM_iff {m : List (Bytes × GV)} : distinctM m ↔ ∀ e ∈ m, distinct e.2 := by
  induction m with
  | nil => simp [distinctM]
  | cons e m ih => obtain ⟨k, v⟩ := e; simp only [distinctM, ih, List.forall_mem_cons]

/-- What other data of the same JSON value has in common. -/
structure KeptJ (nfc : Bytes → Bytes) (v w : GV) : Prop where
  exact : exact nfc w
  isMap : w.isMap = v.isMap
  labelled : ∀ d, w.labelled d = v.labelled d
  nonzero : NonZero v → NonZero w
  elem : okElem v → okElem w
  member : okMember v → okMember w
  leaf : okLeaf v → okLeaf w
  line : ∀ d, okLine d v → okLine d w
  uniform : ∀ d, uniform d v → uniform d w
  canon : w.canon = v.canon

variable {nfc : Bytes → Bytes}

theorem KeptJ.refl {v : GV} (h : Verif.Hcl.exact nfc v) : KeptJ nfc v v :=
  ⟨h, rfl, fun _ => rfl, id, id, id, id, fun _ => id, fun _ => id, rfl⟩

theorem canon_flt_int (n : Int) : (GV.flt (n : Rat)).canon = .int n := by
  simp only [GV.canon]
  rw [if_pos (by simp)]
  simp

theorem keptJ_num {n : Int} {q : Rat} (e : q = n) (h : IsInt64 q) :
    KeptJ nfc (.int n) (.flt q) ∧ KeptJ nfc (.flt q) (.int n) := by
  subst e
  refine ⟨⟨.inl h, rfl, fun _ => rfl, ?_, fun _ => trivial, fun _ => trivial, fun _ => trivial, fun _ _ => trivial,
    fun _ _ => trivial, ?_⟩, ⟨h, rfl, fun _ => rfl, ?_, fun _ => trivial, fun _ => trivial, fun _ => trivial, fun _ _ => trivial,
    fun _ _ => trivial, ?_⟩⟩
  · simp only [NonZero]; exact_mod_cast id
  · rw [canon_flt_int]; rfl
  · simp only [NonZero]; exact_mod_cast id
  · rw [canon_flt_int]; rfl

mutual
theorem keptJ : ∀ v w : GV, v.json = w.json → exact nfc v → noEmpty v → untyped v → untyped w → distinct w → KeptJ nfc v w
  | .nil, w, e, h, _, _, u, _ => by
    cases w <;> simp only [GV.json, reduceCtorEq, untyped] at e u
    exact .refl h
  | .nilList, _, _, _, _, t, _, _ => absurd t id
  | .nilMap, _, _, _, _, t, _, _ => absurd t id
  | .str s, w, e, h, _, _, _, _ => by
    cases w <;> simp only [GV.json, reduceCtorEq, Json.str.injEq] at e
    subst e; exact .refl h
  | .bool s, w, e, h, _, _, _, _ => by
    cases w <;> simp only [GV.json, reduceCtorEq, Json.bool.injEq] at e
    subst e; exact .refl h
  | .int n, w, e, h, _, _, _, _ => by
    cases w <;> simp only [GV.json, reduceCtorEq, Json.num.injEq] at e
    · have e' := Int.cast_injective (α := Rat) e
      subst e'; exact .refl h
    · exact (keptJ_num e.symm (by rw [← e]; exact h)).1
  | .flt q, w, e, h, _, _, _, _ => by
    cases w <;> simp only [GV.json, reduceCtorEq, Json.num.injEq] at e
    · refine (keptJ_num e ?_).2
      simp only [Verif.Hcl.exact, ExactNum] at h
      rcases h with h | ⟨-, h, -⟩
      · exact h
      · exact absurd ⟨_, e⟩ h
    · subst e; exact .refl h
  | .list l, w, e, h, n, t, u, d => by
    cases w <;> simp only [GV.json, reduceCtorEq, Json.arr.injEq] at e
    rename_i l'
    simp only [Verif.Hcl.exact] at h
    simp only [noEmpty] at n
    simp only [untyped] at t u
    simp only [distinct] at d
    obtain ⟨k1, k2, k3⟩ := keptJL l l' e h n.2 t u d
    refine ⟨k1, rfl, fun _ => rfl, id, k2, k2, k2, fun _ => k2, fun _ _ => trivial, ?_⟩
    simp only [GV.canon, k3]
  | .map m, w, e, h, n, t, u, d => by
    cases w <;> simp only [GV.json, reduceCtorEq, Json.obj.injEq] at e
    rename_i m'
    simp only [Verif.Hcl.exact] at h
    simp only [noEmpty] at n
    simp only [untyped] at t u
    simp only [distinct] at d
    have hk := keptJM m h.1 n t
    have hg : ∀ k, (GoMap.get? m k).map GV.json = (GoMap.get? m' k).map GV.json := fun k => by
      rw [← get?_jsonM, ← get?_jsonM, e]
    have to' : ∀ k v, (k, v) ∈ m → ∃ w, (k, w) ∈ m' ∧ KeptJ nfc v w := by
      intro k v hv
      have := hg k
      rw [GoMap.mem_get? h.2 hv] at this
      obtain ⟨w, hw, e⟩ := Option.map_eq_some_iff.1 this.symm
      have hm := GoMap.get?_mem hw
      exact ⟨w, hm, hk _ hv w e.symm (untypedM_iff.1 u _ hm) (distinctM_iff.1 d.2 _ hm)⟩
    have from' : ∀ k w, (k, w) ∈ m' → ∃ v, (k, v) ∈ m ∧ KeptJ nfc v w := by
      intro k w hw
      have := hg k
      rw [GoMap.mem_get? d.1 hw] at this
      obtain ⟨v, hv, e⟩ := Option.map_eq_some_iff.1 this
      have hm := GoMap.get?_mem hv
      exact ⟨v, hm, hk _ hm w e (untypedM_iff.1 u _ hw) (distinctM_iff.1 d.2 _ hw)⟩
    have hmem : ∀ {P : Bytes × GV → Prop}, (∀ k v w, (k, v) ∈ m → KeptJ nfc v w → P (k, w)) → ∀ e ∈ m', P e := by
      rintro P hP ⟨k, w⟩ he
      obtain ⟨v, hv, kw⟩ := from' k w he
      exact hP k v w hv kw
    have hempty : m'.isEmpty = m.isEmpty := by
      rw [Bool.eq_iff_iff, List.isEmpty_iff, List.isEmpty_iff]
      constructor
      · rintro rfl
        cases m with
        | nil => rfl
        | cons x m => obtain ⟨w, hw, -⟩ := to' x.1 x.2 (by simp); simp at hw
      · rintro rfl
        cases m' with
        | nil => rfl
        | cons x m => obtain ⟨w, hw, -⟩ := from' x.1 x.2 (by simp); simp at hw
    have hall : ∀ {p p' : GV → Bool}, (∀ v w, KeptJ nfc v w → p' w = p v) →
        ((∀ e ∈ m', p' e.2 = true) ↔ ∀ e ∈ m, p e.2 = true) := by
      intro p p' hp
      constructor
      · rintro ha ⟨k, v⟩ he
        obtain ⟨w, hw, kw⟩ := to' k v he
        rw [← hp v w kw]; exact ha _ hw
      · exact fun ha => hmem fun k v w hv kw => by rw [hp v w kw]; exact ha _ hv
    have hby : ∀ d, byLabels d m' = byLabels d m := by
      intro d
      rw [byLabels_eq, byLabels_eq, hempty]
      congr 2
      rw [Bool.eq_iff_iff, List.all_eq_true, List.all_eq_true]
      exact hall fun v w kw => kw.isMap
    have hflat : okFlat m → okFlat m' := fun ho =>
      okFlat_iff.2 (hmem fun k v w hv kw => ⟨(okFlat_iff.1 ho _ hv).1, kw.leaf (okFlat_iff.1 ho _ hv).2⟩)
    have hobj : okObj m → okObj m' := fun ho =>
      okObj_iff.2 (hmem fun k v w hv kw => ⟨(okObj_iff.1 ho _ hv).1, kw.member (okObj_iff.1 ho _ hv).2⟩)
    have hbody : okBody m → okBody m' := fun ho =>
      okBody_iff.2 ⟨d.1, hmem fun k v w hv kw => ⟨((okBody_iff.1 ho).2 _ hv).1, kw.line 0 ((okBody_iff.1 ho).2 _ hv).2⟩⟩
    constructor
    · exact ⟨exactM_iff.2 (hmem fun k v w hv kw => kw.exact), d.1⟩
    · rfl
    · exact hby
    · exact id
    · exact hobj
    · exact hflat
    · exact id
    · intro d
      simp only [okLine, hby]
      exact fun ho => ⟨fun hb => okLabels_iff.2 (hmem fun k v w hv kw =>
        ⟨(okLabels_iff.1 (ho.1 hb) _ hv).1, kw.line _ (okLabels_iff.1 (ho.1 hb) _ hv).2⟩), fun hb => hbody (ho.2 hb)⟩
    · intro d
      simp only [Verif.Hcl.uniform, hby]
      refine fun ho => ⟨fun hb => ⟨uniformL_iff.2 (hmem fun k v w hv kw => kw.uniform _ (uniformL_iff.1 (ho.1 hb).1 _ hv)), ?_⟩,
        fun hb => uniformM_iff.2 (hmem fun k v w hv kw => kw.uniform _ (uniformM_iff.1 (ho.2 hb) _ hv))⟩
      rcases (ho.1 hb).2 with ha | ha
      · exact .inl (hmem fun k v w hv kw => by rw [kw.labelled]; exact ha _ hv)
      · exact .inr (hmem fun k v w hv kw => by rw [kw.labelled]; exact ha _ hv)
    · simp only [GV.canon, GV.map.injEq]
      refine (sorted_canonM _).ext (sorted_canonM _) fun k => ?_
      rw [get?_canonM, get?_canonM]
      cases hv : GoMap.get? m k with
      | none =>
        have := hg k
        rw [hv] at this
        rw [Option.map_eq_none_iff.1 this.symm]
      | some v =>
        have := hg k
        rw [hv] at this
        obtain ⟨w, hw, e⟩ := Option.map_eq_some_iff.1 this.symm
        have hm := GoMap.get?_mem hw
        rw [hw]
        exact congrArg some (hk _ (GoMap.get?_mem hv) w e.symm (untypedM_iff.1 u _ hm) (distinctM_iff.1 d.2 _ hm)).canon
theorem keptJL : ∀ l l' : List GV, jsonL l = jsonL l' → exactL nfc l → noEmptyL l → untypedL l → untypedL l' → distinctL l' →
    exactL nfc l' ∧ (okElems l → okElems l') ∧ canonL l' = canonL l
  | [], l', e, _, _, _, _, _ => by
    cases l' with
    | nil => exact ⟨trivial, id, rfl⟩
    | cons w l' => simp only [jsonL, reduceCtorEq] at e
  | v :: l, l', e, h, n, t, u, d => by
    cases l' with
    | nil => simp only [jsonL, reduceCtorEq] at e
    | cons w l' =>
      simp only [jsonL, List.cons.injEq] at e
      simp only [exactL] at h
      simp only [noEmptyL] at n
      simp only [untypedL] at t u
      simp only [distinctL] at d
      have k := keptJ v w e.1 h.2.1 n.1 t.1 u.1 d.1
      obtain ⟨k1, k2, k3⟩ := keptJL l l' e.2 h.2.2 n.2 t.2 u.2 d.2
      exact ⟨⟨k.nonzero h.1, k.exact, k1⟩, fun ho => ⟨k.elem ho.1, k2 ho.2⟩, by simp only [canonL, k.canon, k3]⟩
theorem keptJM : ∀ m : List (Bytes × GV), exactM nfc m → noEmptyM m → untypedM m →
    ∀ e ∈ m, ∀ w, e.2.json = w.json → untyped w → distinct w → KeptJ nfc e.2 w
  | [], _, _, _ => by simp
  | (k, v) :: m, h, n, t => by
    simp only [exactM] at h
    simp only [noEmptyM] at n
    simp only [untypedM] at t
    have k2 := keptJM m h.2 n.2 t.2
    intro e he w ew u d
    rcases List.mem_cons.1 he with rfl | he
    · exact keptJ v w ew h.1 n.1 t.1 u d
    · exact k2 e he w ew u d
end

/-- Data of the same JSON value as data that can be written is written, and the text is read as the data. -/
theorem cycle {ext : Ext} (ho : ∀ p ks, (ext.ord p ks).Perm ks) {m : List (Bytes × GV)} {w : GV}
    (hs : w.json = (GV.map m).json) (hu : untyped w) (hd : distinct w) (hne : m ≠ []) (hok : okBody m)
    (hex : exactM ext.nfc m) (hun : uniformM m) (hno : noEmptyM m) (ht : untypedM m) :
    ∃ t, hclEnc w = .ok t ∧ hclDec ext t = .ok (.map (canonM m)) := by
  have hexm : exact ext.nfc (.map m) := by simp only [exact]; exact ⟨hex, okBody_nodup hok⟩
  have hb : byLabels 2 m = false := by simp [byLabels]
  have k := keptJ (.map m) w hs.symm hexm hno ht hu hd
  cases w <;> simp only [GV.json, reduceCtorEq, Json.obj.injEq] at hs
  rename_i m'
  have hb' : byLabels 2 m' = false := by simp [byLabels]
  have hex' := k.exact
  have hok' : okBody m' := by
    have := k.line 2
    simp only [okLine, hb, hb', Bool.false_eq_true, false_implies, true_implies, true_and] at this
    exact this hok
  have hun' : uniformM m' := by
    have := k.uniform 2
    simp only [uniform, hb, hb', Bool.false_eq_true, false_implies, true_implies, true_and] at this
    exact this hun
  have hne' : m' ≠ [] := by
    rintro rfl
    have := k.canon
    simp only [GV.canon, canonM, GV.map.injEq] at this
    exact canonM_ne_nil hne this.symm
  have hcan := k.canon
  simp only [GV.canon, GV.map.injEq] at hcan
  simp only [exact] at hex'
  obtain ⟨o, ho'⟩ := encV_total ext.nfc (.map m') (by simp only [exact]; exact hex') 0 none
  obtain ⟨t, rfl, hp⟩ := marshal_body hok' ho'
  have ho' : marshal (.map m') = .ok (some t) := ho'
  refine ⟨t, by simp only [hclEnc, ho', Out.ofExcept, Out.map, Out.bind, Option.getD], ?_⟩
  simp only [hclDec, unmarshalMap, decodeMap_back ho hne' hok' hex'.1 hun' hp, Out.map, Out.bind,
    hcan, foldl_sorted_id (sorted_canonM m)]

end Verif.Hcl
