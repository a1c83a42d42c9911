import Verif.Spec.DetFail
import Verif.Lemmas.Det
/-! # Lemmas: decoding JSON with another version of `encoding/json` -/
namespace Verif.Det

/-- The second is the same if the first is a success. -/
def Out.Le {α : Type} (x x' : Out α) : Prop := ∀ a, x = .ok a → x' = .ok a

theorem Out.Le.rfl {α : Type} {x : Out α} : Out.Le x x := fun _ h => h

theorem Out.Le.bind {α β : Type} {x x' : Out α} {f f' : α → Out β} (h : Out.Le x x') (hf : ∀ a, Out.Le (f a) (f' a)) :
    Out.Le (x.bind f) (x'.bind f') := by
  intro y hy
  obtain ⟨a, h1, h2⟩ := Out.bind_ok.mp hy
  exact Out.bind_ok.mpr ⟨a, h a h1, hf a y h2⟩

theorem rawSet_le {ext ext' : Ext} (hx : ext.Le ext') {f : Fld} {r r' : Raw} {j : J} (h : rawSet ext f r j = some r') :
    rawSet ext' f r j = some r' := by
  cases r with
  | val v =>
    change (ext.leaf f v j).map Raw.val = some r' at h
    change (ext'.leaf f v j).map Raw.val = some r'
    cases h1 : ext.leaf f v j with
    | none => rw [h1] at h; cases h
    | some x => rw [h1] at h; rw [hx.leaf f v j x h1]; exact h
  | msg d => exact h
  | list l => cases j <;> exact h
  | map m => cases j <;> exact h
  | map2 m => cases j <;> exact h

theorem rawMember_le {ext ext' : Ext} (hx : ext.Le ext') {fs : List Fld} {raws raws' : List Raw} {e : Bytes × J}
    (h : rawMember ext fs raws e = some raws') : rawMember ext' fs raws e = some raws' := by
  have hf : findField ext' fs e.1 = findField ext fs e.1 := by unfold findField; rw [hx.fold]
  unfold rawMember at h ⊢
  rw [hf]
  cases h1 : findField ext fs e.1 with
  | none => rw [h1] at h; exact h
  | some i =>
    rw [h1] at h
    dsimp only at h ⊢
    cases h2 : fs[i]? with
    | none => rw [h2] at h; exact h
    | some f =>
      cases h3 : raws[i]? with
      | none => rw [h2, h3] at h; exact h
      | some r =>
        rw [h2, h3] at h
        dsimp only at h ⊢
        cases h4 : rawSet ext f r e.2 with
        | none => rw [h4] at h; cases h
        | some r' => rw [h4] at h; rw [rawSet_le hx h4]; exact h

theorem rawFold_le {ext ext' : Ext} (hx : ext.Le ext') {fs : List Fld} (m : List (Bytes × J)) {raws raws' : List Raw}
    (h : m.foldlM (rawMember ext fs) raws = some raws') : m.foldlM (rawMember ext' fs) raws = some raws' := by
  induction m generalizing raws with
  | nil => exact h
  | cons e m ih =>
    rw [List.foldlM_cons] at h ⊢
    cases h1 : rawMember ext fs raws e with
    | none => rw [h1] at h; cases h
    | some r => rw [h1] at h; rw [rawMember_le hx h1]; exact ih h

theorem rawDecode_le {ext ext' : Ext} (hx : ext.Le ext') {kind : Fld → RawKind} {fs : List Fld} {d : Doc} {raws : List Raw}
    (h : rawDecode ext kind fs d = some raws) : rawDecode ext' kind fs d = some raws := by
  have hz : (fun f => rawZero ext' (kind f) f) = fun f => rawZero ext (kind f) f := by
    funext f; unfold rawZero; rw [hx.zero]
  cases d with
  | none => cases h
  | some j =>
    cases j with
    | null => unfold rawDecode at h ⊢; dsimp only at h ⊢; rw [hz]; exact h
    | obj m => unfold rawDecode at h ⊢; dsimp only at h ⊢; rw [hz]; exact rawFold_le hx m h
    | _ => cases h

section
variable {env : Env} {ord : List Bytes → List Bytes → List Bytes} {el el' : List Bytes → Cls → Doc → Out Inst}

theorem mapLoop_le (he : ∀ p s d, Out.Le (el p s d) (el' p s d)) (path : List Bytes) (kt : KeyTy) (et : Ty) (specs : List (Bytes × Cls))
    (first : Cls) (raw : GoMap Bytes J) (keys : List Bytes) (m : List (Bytes × Val)) :
    Out.Le (mapLoop env el path kt et specs first raw keys m) (mapLoop env el' path kt et specs first raw keys m) := by
  induction keys generalizing m with
  | nil => exact Out.Le.rfl
  | cons key keys ih =>
    unfold mapLoop
    refine (he _ _ _).bind fun i => Out.Le.rfl.bind fun v => ?_
    split
    · exact Out.Le.rfl
    · exact ih _

theorem listMapLoop_le (he : ∀ p s d, Out.Le (el p s d) (el' p s d)) (path : List Bytes) (kt : KeyTy) (et : Ty) (specs : List Cls)
    (first : Cls) (raw : GoMap Bytes J) (keys : List Bytes) (k : Nat) (m : List (Bytes × Val)) :
    Out.Le (listMapLoop env el path kt et specs first raw k keys m) (listMapLoop env el' path kt et specs first raw k keys m) := by
  induction keys generalizing m k with
  | nil => exact Out.Le.rfl
  | cons key keys ih =>
    unfold listMapLoop
    refine (he _ _ _).bind fun i => Out.Le.rfl.bind fun v => ?_
    split
    · exact Out.Le.rfl
    · exact ih _ _

theorem sliceLoop_le (he : ∀ p s d, Out.Le (el p s d) (el' p s d)) (path : List Bytes) (et : Ty) (specs : List Cls) (first : Cls)
    (js : List J) (k : Nat) : Out.Le (sliceLoop env el path et specs first k js) (sliceLoop env el' path et specs first k js) := by
  induction js generalizing k with
  | nil => exact Out.Le.rfl
  | cons j js ih =>
    unfold sliceLoop
    exact (he _ _ _).bind fun i => Out.Le.rfl.bind fun v => (ih _).bind fun _ => Out.Le.rfl

theorem map2Inner_le (he : ∀ p s d, Out.Le (el p s d) (el' p s d)) (path : List Bytes) (kt : KeyTy) (et : Ty) (inner : List (Bytes × Cls))
    (first : Cls) (key0 : Bytes) (raw : GoMap Bytes J) (keys : List Bytes) (m : List ((Bytes × Bytes) × Val)) :
    Out.Le (map2Inner env el path kt et inner first key0 raw keys m) (map2Inner env el' path kt et inner first key0 raw keys m) := by
  induction keys generalizing m with
  | nil => exact Out.Le.rfl
  | cons key keys ih =>
    unfold map2Inner
    refine (he _ _ _).bind fun i => Out.Le.rfl.bind fun v => ?_
    split
    · exact Out.Le.rfl
    · exact ih _

theorem map2Outer_le (he : ∀ p s d, Out.Le (el p s d) (el' p s d)) (path : List Bytes) (kt : KeyTy) (et : Ty)
    (specs : List (Bytes × List (Bytes × Cls))) (fm : List (Bytes × Cls)) (fs : Cls) (raw : GoMap Bytes (GoMap Bytes J)) (keys : List Bytes)
    (m : List ((Bytes × Bytes) × Val)) :
    Out.Le (map2Outer env ord el path kt et specs fm fs raw keys m) (map2Outer env ord el' path kt et specs fm fs raw keys m) := by
  induction keys generalizing m with
  | nil => exact Out.Le.rfl
  | cons key keys ih =>
    unfold map2Outer
    exact (map2Inner_le he _ _ _ _ _ _ _ _ _).bind fun _ => ih _

theorem fieldValue_le (he : ∀ p s d, Out.Le (el p s d) (el' p s d)) (path : List Bytes) (om : List (Bytes × CVal)) (f : Fld) (raw : Raw) :
    Out.Le (fieldValue env ord el path om f raw) (fieldValue env ord el' path om f raw) := by
  unfold fieldValue
  dsimp only
  split
  · exact Out.Le.rfl
  · refine Out.Le.bind ?_ fun _ => Out.Le.rfl
    unfold handleMap2Struct
    split
    · exact Out.Le.rfl
    · split
      · exact Out.Le.rfl
      · split
        · exact (map2Outer_le he _ _ _ _ _ _ _ _ _).bind fun _ => Out.Le.rfl
        · exact Out.Le.rfl
  · refine Out.Le.bind ?_ fun _ => Out.Le.rfl
    unfold handleMapStruct
    split
    · exact Out.Le.rfl
    · split
      · exact (mapLoop_le he _ _ _ _ _ _ _ _).bind fun _ => Out.Le.rfl
      · exact Out.Le.rfl
  · refine Out.Le.bind ?_ fun _ => Out.Le.rfl
    unfold handleListOrMapStruct
    split
    · exact Out.Le.rfl
    · split
      · exact (listMapLoop_le he _ _ _ _ _ _ _ _ _).bind fun _ => Out.Le.rfl
      · exact (sliceLoop_le he _ _ _ _ _ _).bind fun _ => Out.Le.rfl
      · exact Out.Le.rfl
  · refine Out.Le.bind ?_ fun _ => Out.Le.rfl
    unfold handleSingleStruct
    exact (he _ _ _).bind fun _ => Out.Le.rfl
  · exact Out.Le.rfl
  · exact Out.Le.rfl

theorem fieldLoop_le (he : ∀ p s d, Out.Le (el p s d) (el' p s d)) (path : List Bytes) (om : List (Bytes × CVal)) (l : List (Fld × Raw))
    {tgt t : Inst} (h : fieldLoop env ord el path om l tgt = .ret t false) : fieldLoop env ord el' path om l tgt = .ret t false := by
  induction l generalizing tgt with
  | nil => exact h
  | cons e l ih =>
    obtain ⟨f, raw⟩ := e
    unfold fieldLoop at h ⊢
    cases h1 : fieldValue env ord el path om f raw with
    | ok o =>
      rw [h1] at h
      rw [fieldValue_le he _ _ _ _ o h1]
      cases o with
      | none => exact ih h
      | some v => exact ih h
    | err => rw [h1] at h; cases h
    | panic => rw [h1] at h; cases h
    | hang => rw [h1] at h; cases h
end

theorem plain_le {ext ext' : Ext} (hx : ext.Le ext') {tgt t : Inst} {d : Doc} (h : plainUnmarshal ext tgt d = .ret t false) :
    plainUnmarshal ext' tgt d = .ret t false := by
  cases d with
  | none => cases h
  | some j =>
    unfold plainUnmarshal at h ⊢
    dsimp only at h ⊢
    have h1 : ext.plain tgt j = ((ext.plain tgt j).1, false) := by
      injection h with _ h2
      exact Prod.ext rfl h2
    rw [hx.plain _ _ _ h1]
    rw [h1] at h
    exact h

theorem fresh_le {ext ext' : Ext} (hx : ext.Le ext') (env : Env) : fresh env ext' = fresh env ext := by
  funext c; unfold fresh; rw [hx.zero]

theorem element_le {env : Env} {ext ext' : Ext} (hx : ext.Le ext') {reg : Reg} {rec rec' : List Bytes → Inst → Cls → Doc → Res}
    (hr : ∀ p i s d t, rec p i s d = .ret t false → rec' p i s d = .ret t false) (p : List Bytes) (s : Cls) (d : Doc) :
    Out.Le (element env ext reg rec p s d) (element env ext' reg rec' p s d) := by
  intro a h
  unfold element at h ⊢
  rw [fresh_le hx]
  cases h1 : GoMap.get? reg s.name with
  | none => rw [h1] at h; cases h
  | some t =>
    rw [h1] at h
    cases t with
    | nil => cases h
    | bad => cases h
    | ptr c x =>
      dsimp only at h ⊢
      cases h2 : rec p ⟨c, fresh env ext c⟩ s d with
      | ret i e =>
        rw [h2] at h
        cases e with
        | true => cases h
        | false => rw [hr _ _ _ _ _ h2]; exact h
      | panic => rw [h2] at h; cases h
      | hang => rw [h2] at h; cases h

theorem mergeReg_le {env : Env} {ext ext' : Ext} (hx : ext.Le ext') (fuel : Nat) (ref : Ref) (c : Nat) :
    mergeReg env ext' fuel ref c = mergeReg env ext fuel ref c := by
  unfold mergeReg; rw [fresh_le hx]

theorem unmarshalN_le {env : Env} {ext ext' : Ext} (hx : ext.Le ext') (fuel n : Nat) {ref : Ref} {path : List Bytes} {tgt t : Inst} {s : Cls}
    {d : Doc} (h : jsonUnmarshalN env ext fuel n ref path tgt s d = .ret t false) :
    jsonUnmarshalN env ext' fuel n ref path tgt s d = .ret t false := by
  induction n generalizing ref path tgt s d t with
  | zero => cases h
  | succ n ih =>
    unfold jsonUnmarshalN jsonUnmarshalStep at h ⊢
    by_cases hs : s.fields = []
    · rw [if_pos hs] at h ⊢
      exact plain_le hx h
    · rw [if_neg hs] at h ⊢
      rw [mergeReg_le hx, hx.structOf, hx.ord]
      cases h1 : mergeReg env ext fuel ref tgt.cls with
      | none => rw [h1] at h; cases h
      | some reg =>
        rw [h1] at h
        dsimp only at h ⊢
        split at h
        · cases h
        · rename_i hp
          rw [if_neg hp]
          cases h2 : rawDecode ext (rawKind env s.fields) (loopFields (env.struct tgt.cls).fields) d with
          | none => rw [h2] at h; cases h
          | some raws =>
            rw [h2] at h
            rw [rawDecode_le hx h2]
            exact fieldLoop_le (element_le hx fun _ _ _ _ _ => ih) _ _ _ h

end Verif.Det
