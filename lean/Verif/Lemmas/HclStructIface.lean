import Verif.Spec.HclStructIface
import Verif.Lemmas.HclStructDoc
/-!
# Decoding documents for structs with interfaces
-/

namespace Verif.HclS
open Tree (Heap Le Walk)
open Hcl (Cty Expr)
open Det (Cls CVal KeyTy insertK ltB ltB2)

/-! ## The fields -/

def isPlainO (obj : List (Bytes × CVal)) (f : Fld) : Bool := !isLabelF f && ((GoMap.get? obj f.name).isNone && f.ty.isPlain)
def isBlockO (obj : List (Bytes × CVal)) (f : Fld) : Bool := !isLabelF f && ((GoMap.get? obj f.name).isSome || f.ty.isBlock)

def isAnyO (obj : List (Bytes × CVal)) (f : Fld) : Bool :=
  !isLabelF f && ((GoMap.get? obj f.name).isNone && (f.ty = .slice .any || f.ty = .map .str .any))

def KindsO (obj : List (Bytes × CVal)) (f : Fld) : Prop := LabelFld f ∨ FreeFld obj f ∨ SpecFld obj f ∨ AnyFld obj f

theorem LabelFld.isO {obj f} (h : LabelFld f) :
    isLabelF f = true ∧ isPlainO obj f = false ∧ isBlockO obj f = false ∧ isAnyO obj f = false := by
  have : isLabelF f = true := by simp [isLabelF, h.what]
  simp [isPlainO, isBlockO, isAnyO, this]

theorem plain_notAny {t : Ty} (h : t.isPlain = true) : ¬ (t = .slice .any ∨ t = .map .str .any) := by
  rintro (rfl | rfl) <;> cases h

theorem block_notAny {t : Ty} (h : t.isBlock = true) : ¬ (t = .slice .any ∨ t = .map .str .any) := by
  rintro (rfl | rfl) <;> cases h

theorem FreeFld.isO {obj f} (h : FreeFld obj f) :
    isLabelF f = false ∧ isPlainO obj f = true ∧ isBlockO obj f = false ∧ isAnyO obj f = false := by
  have : isLabelF f = false := by simp [isLabelF, h.1.decodes.notLabel]
  have h2 := not_or.1 (plain_notAny h.1.ty)
  simp [isPlainO, isBlockO, isAnyO, this, h.1.ty, h.2, plain_notBlock h.1.ty, h2]

theorem SpecFld.isO {obj f} (h : SpecFld obj f) :
    isLabelF f = false ∧ isPlainO obj f = false ∧ isBlockO obj f = true ∧ isAnyO obj f = false := by
  have h1 : isLabelF f = false := by simp [isLabelF, h.decodes.notLabel]
  refine ⟨h1, ?_, ?_, ?_⟩
  · rcases h.ty with h2 | h2
    · cases hg : GoMap.get? obj f.name with
      | none => rw [hg] at h2; cases h2
      | some v => simp [isPlainO, hg]
    · have : f.ty.isPlain = false := by
        cases hp : f.ty.isPlain
        · rfl
        · have := plain_notBlock hp; rw [h2] at this; cases this
      simp [isPlainO, this]
  · rcases h.ty with h2 | h2 <;> simp [isBlockO, h1, h2]
  · rcases h.ty with h2 | h2
    · cases hg : GoMap.get? obj f.name with
      | none => rw [hg] at h2; cases h2
      | some v => simp [isAnyO, hg]
    · have h3 := not_or.1 (block_notAny h2)
      simp [isAnyO, h3]

theorem AnyFld.isO {obj f} (h : AnyFld obj f) :
    isLabelF f = false ∧ isPlainO obj f = false ∧ isBlockO obj f = false ∧ isAnyO obj f = true := by
  have h1 : isLabelF f = false := by simp [isLabelF, h.decodes.notLabel]
  rcases h.ty with h2 | h2 <;> simp [isPlainO, isBlockO, isAnyO, h1, h2, h.free, Ty.isPlain, Ty.isBlock]

theorem KindsO.label {obj f} (h : KindsO obj f) (hl : isLabelF f = true) : LabelFld f := by
  rcases h with h | h | h | h
  · exact h
  all_goals rw [h.isO.1] at hl; cases hl

theorem KindsO.plain {obj f} (h : KindsO obj f) (hl : isPlainO obj f = true) : FreeFld obj f := by
  rcases h with h | h | h | h
  · rw [h.isO.2.1] at hl; cases hl
  · exact h
  all_goals rw [h.isO.2.1] at hl; cases hl

theorem KindsO.block {obj f} (h : KindsO obj f) (hl : isBlockO obj f = true) : SpecFld obj f := by
  rcases h with h | h | h | h
  · rw [h.isO.2.2.1] at hl; cases hl
  · rw [h.isO.2.2.1] at hl; cases hl
  · exact h
  · rw [h.isO.2.2.1] at hl; cases hl

theorem KindsO.generic {obj f} (h : KindsO obj f) (hl : isAnyO obj f = true) : AnyFld obj f := by
  rcases h with h | h | h | h
  · rw [h.isO.2.2.2] at hl; cases hl
  · rw [h.isO.2.2.2] at hl; cases hl
  · rw [h.isO.2.2.2] at hl; cases hl
  · exact h

theorem KindsO.tagged {obj f} (h : KindsO obj f) : lower f.what = b "label" ∨ f.tag ≠ [] := by
  rcases h with h | h | h | h
  · exact .inl h.what
  · exact .inr h.1.decodes.tag
  · exact .inr h.decodes.tag
  · exact .inr h.decodes.tag

theorem addTagged_any (env ext) {f : Fld} (h : f.ty = .slice .any ∨ f.ty = .map .str .any) (lf : LF) :
    lf.addTagged env ext f = { lf with decs := lf.decs ++ [f] } := by
  obtain ⟨name, upper, rawTag, ty⟩ := f
  simp only at h
  rcases h with rfl | rfl <;> rfl

/-- What `loopFields` finds. -/
structure SortsO (env : Env) (ext : Ext) (obj : List (Bytes × CVal)) (fields : List Fld) (lf lf' : LF) : Prop where
  labels : lf'.labels = lf.labels ++ fields.filter isLabelF
  news : lf'.news = lf.news ++ fields.filter (isPlainO obj)
  oris : lf'.oris = lf.oris ++ fields.filter (isBlockO obj)
  decs : lf'.decs = lf.decs ++ fields.filter (isAnyO obj)
  given : ∀ f ∈ fields, ∀ v, GoMap.get? obj f.name = some v → GoMap.get? lf'.obj f.name = some v
  slots : ∀ f ∈ fields, SpecFld obj f → GoMap.get? obj f.name = none → ∃ c nm v, Slot env f.ty c nm v ∧
    GoMap.get? lf'.obj f.name = some v ∧ GoMap.get? lf'.ref nm = some (newOf env ext (.struct c))

theorem loopList_sortsO {env ext deep obj} (hd : Deep deep) (hst : ∀ fs lf lf', deep fs lf = .ok lf' → RefStep env ext lf.ref lf'.ref) :
    ∀ {fields : List Fld} {lf : LF}, (∀ f ∈ fields, KindsO obj f) → (fields.map Fld.name).Nodup →
      (∀ f ∈ fields, GoMap.get? lf.obj f.name = GoMap.get? obj f.name) → Canonical env ext lf.ref →
      ∃ lf', loopList env ext [] deep fields lf = .ok lf' ∧ SortsO env ext obj fields lf lf'
  | [], lf, _, _, _, _ => ⟨lf, rfl, by simp, by simp, by simp, by simp, fun f hf => (by cases hf), fun f hf => by cases hf⟩
  | f :: fields, lf, hk, hn, ho, hc => by
    rw [List.map_cons, List.nodup_cons] at hn
    have hk' := fun g hg => hk g (List.mem_cons_of_mem _ hg)
    have hne : ∀ g ∈ fields, g.name ≠ f.name := fun g hg e => hn.1 (e ▸ List.mem_map.2 ⟨g, hg, rfl⟩)
    have ho' := fun g hg => ho g (List.mem_cons_of_mem _ hg)
    have hof := ho f (by simp)
    have fin : ∀ {lf1 lf' : LF}, loopList env ext [] deep (f :: fields) lf = loopList env ext [] deep fields lf1 →
        loopList env ext [] deep fields lf1 = .ok lf' → SortsO env ext obj fields lf1 lf' →
        lf1.labels = lf.labels ++ [f].filter isLabelF → lf1.news = lf.news ++ [f].filter (isPlainO obj) →
        lf1.oris = lf.oris ++ [f].filter (isBlockO obj) → lf1.decs = lf.decs ++ [f].filter (isAnyO obj) →
        (∀ v, GoMap.get? obj f.name = some v → GoMap.get? lf'.obj f.name = some v) →
        (SpecFld obj f → GoMap.get? obj f.name = none → ∃ c nm v, Slot env f.ty c nm v ∧
          GoMap.get? lf'.obj f.name = some v ∧ GoMap.get? lf'.ref nm = some (newOf env ext (.struct c))) →
        ∃ lf', loopList env ext [] deep (f :: fields) lf = .ok lf' ∧ SortsO env ext obj (f :: fields) lf lf' := by
      intro lf1 lf' e h1 h2 e1 e2 e3 e4 e5 e6
      refine ⟨lf', e.trans h1, ?_, ?_, ?_, ?_, ?_, ?_⟩
      · rw [h2.labels, e1, List.append_assoc, ← List.filter_append]; rfl
      · rw [h2.news, e2, List.append_assoc, ← List.filter_append]; rfl
      · rw [h2.oris, e3, List.append_assoc, ← List.filter_append]; rfl
      · rw [h2.decs, e4, List.append_assoc, ← List.filter_append]; rfl
      · intro g hg
        rcases List.mem_cons.1 hg with rfl | hg
        · exact e5
        · exact h2.given g hg
      · intro g hg
        rcases List.mem_cons.1 hg with rfl | hg
        · exact e6
        · exact h2.slots g hg
    rcases hk f (by simp) with h | h | h | h
    · obtain ⟨lf', h1, h2⟩ := loopList_sortsO hd hst (fields := fields) (lf := { lf with labels := lf.labels ++ [f] }) hk' hn.2 ho' hc
      have hi := LabelFld.isO (obj := obj) h
      refine fin ?_ h1 h2 (by simp [hi]) (by simp [hi]) (by simp [hi]) (by simp [hi]) ?_ ?_
      · rw [loopList, if_neg (by simp [h.upper]), if_neg (by simp), if_pos h.what]
      · intro v hv
        exact (loopList_grows hd.grows _ _ _ h1).obj _ _ (hof.trans hv)
      · intro hb
        exact absurd h.what hb.decodes.notLabel
    · obtain ⟨hp, hnone⟩ := h
      obtain ⟨lf', h1, h2⟩ := loopList_sortsO hd hst (fields := fields) (lf := lf.addTagged env ext f) hk' hn.2
        (by rw [addTagged_plain _ _ hp.ty]; exact ho') (by rw [addTagged_plain _ _ hp.ty]; exact hc)
      have hi := FreeFld.isO (obj := obj) ⟨hp, hnone⟩
      refine fin ?_ h1 h2 (by rw [addTagged_plain _ _ hp.ty]; simp [hi]) (by rw [addTagged_plain _ _ hp.ty]; simp [hi])
        (by rw [addTagged_plain _ _ hp.ty]; simp [hi]) (by rw [addTagged_plain _ _ hp.ty]; simp [hi]) ?_ ?_
      · rw [loopList, if_neg (by simp [hp.decodes.upper]), if_neg (by simp), if_neg hp.decodes.notLabel,
          if_neg (by rw [tag_noSuffix]; simpa using hp.decodes.notDash), if_neg (by rw [hof, hnone]; simp),
          if_neg hp.decodes.tag]
      · intro v hv; rw [hnone] at hv; cases hv
      · intro hb; have := hb.isO.2.1; rw [hi.2.1] at this; cases this
    · cases hs : GoMap.get? obj f.name with
      | some spec =>
        obtain ⟨lf', h1, h2⟩ := loopList_sortsO hd hst (fields := fields) (lf := { lf with oris := lf.oris ++ [f] }) hk' hn.2 ho' hc
        refine fin ?_ h1 h2 (by simp [h.isO]) (by simp [h.isO]) (by simp [h.isO]) (by simp [h.isO]) ?_ ?_
        · rw [loopList, if_neg (by simp [h.decodes.upper]), if_neg (by simp), if_neg h.decodes.notLabel,
            if_neg (by rw [tag_noSuffix]; simpa using h.decodes.notDash), if_pos (by rw [hof, hs]; rfl), if_neg (by simp [h.decodes.tag])]
        · intro v hv
          exact (loopList_grows hd.grows _ _ _ h1).obj _ _ (hof.trans hv)
        · intro _ hn; rw [hs] at hn; cases hn
      | none =>
        have hty : f.ty.isBlock = true := by
          rcases h.ty with h | h
          · rw [hs] at h; cases h
          · exact h
        obtain ⟨c, nm, v, hsl, he⟩ := addTagged_block (env := env) ext hty
        have hc2 : Canonical env ext (lf.addTagged env ext f).ref := (addTagged_step lf f).canonical hc
        obtain ⟨lf', h1, h2⟩ := loopList_sortsO hd hst (fields := fields) (lf := lf.addTagged env ext f) hk' hn.2
          (by
            intro g hg
            rw [he]
            simp only [LF.addOri, GoMap.get?_set]
            rw [if_neg (Ne.symm (hne g hg))]
            exact ho' g hg) hc2
        refine fin ?_ h1 h2 (by rw [he]; simp [h.isO, LF.addOri]) (by rw [he]; simp [h.isO, LF.addOri])
          (by rw [he]; simp [h.isO, LF.addOri]) (by rw [he]; simp [h.isO, LF.addOri]) ?_ ?_
        · rw [loopList, if_neg (by simp [h.decodes.upper]), if_neg (by simp), if_neg h.decodes.notLabel,
            if_neg (by rw [tag_noSuffix]; simpa using h.decodes.notDash), if_neg (by rw [hof, hs]; simp),
            if_neg h.decodes.tag]
        · intro v hv; rw [hs] at hv; cases hv
        · intro _ _
          refine ⟨c, nm, v, hsl, ?_, ?_⟩
          · refine (loopList_grows hd.grows _ _ _ h1).obj _ _ ?_
            rw [he]; simp [LF.addOri, GoMap.get?_set]
          · refine (loopList_step hst _ _ _ h1).le hc2 _ _ ?_
            rw [he]; simp [LF.addOri, GoMap.get?_set]
    · obtain ⟨lf', h1, h2⟩ := loopList_sortsO hd hst (fields := fields) (lf := lf.addTagged env ext f) hk' hn.2
        (by rw [addTagged_any _ _ h.ty]; exact ho') (by rw [addTagged_any _ _ h.ty]; exact hc)
      have hi := h.isO
      refine fin ?_ h1 h2 (by rw [addTagged_any _ _ h.ty]; simp [hi]) (by rw [addTagged_any _ _ h.ty]; simp [hi])
        (by rw [addTagged_any _ _ h.ty]; simp [hi]) (by rw [addTagged_any _ _ h.ty]; simp [hi]) ?_ ?_
      · rw [loopList, if_neg (by simp [h.decodes.upper]), if_neg (by simp), if_neg h.decodes.notLabel,
          if_neg (by rw [tag_noSuffix]; simpa using h.decodes.notDash), if_neg (by rw [hof, h.free]; simp),
          if_neg h.decodes.tag]
      · intro v hv; rw [h.free] at hv; cases hv
      · intro hb; have := hb.isO.2.2.1; rw [hi.2.2.1] at this; cases this

theorem loopFields_sortsO {env ext obj} (n) {fields : List Fld} {lf : LF} (hk : ∀ f ∈ fields, KindsO obj f) (hn : (fields.map Fld.name).Nodup)
    (ho : ∀ f ∈ fields, GoMap.get? lf.obj f.name = GoMap.get? obj f.name) (hc : Canonical env ext lf.ref) :
    ∃ lf', loopFields env ext [] n fields lf = .ok lf' ∧ SortsO env ext obj fields lf lf' := by
  cases n with
  | zero => exact loopList_sortsO deep_hang (fun _ _ _ h => by cases h) hk hn ho hc
  | succ n => exact loopList_sortsO (deep_loopFields n) (loopFields_step n) hk hn ho hc

/-! ## Blocks -/

/-- The recursive call decodes what documents display; `ref` is the map at the beginning. -/
def RecDisplays (env : Env) (ext : Ext) (root : Nat) (ref : GoMap Bytes Tmpl)
    (shows : List (Bytes × CVal) → List Bytes → Body → Nat → Fields → Prop) (rec : Rec) : Prop :=
  ∀ path st node c fs obj labels body, Tree.Inv st.heap → root < st.heap.length → node < st.heap.length → Canonical env ext st.ref →
    RefLe ref st.ref → shows obj labels body c fs →
    ∃ st', rec path st node c (newFields env ext c) obj labels body = (fs, .ok st') ∧
      Tree.Inv st'.heap ∧ Le st.heap st'.heap ∧ RefStep env ext st.ref st'.ref

section
variable {env : Env} {ext : Ext} {root node : Nat} {h0 : Heap Cty} {ref r0 : GoMap Bytes Tmpl}
  {shows : List (Bytes × CVal) → List Bytes → Body → Nat → Fields → Prop} {rec : Rec} (hrec : RecDisplays env ext root ref shows rec) (hle : RefLe ref r0)
include hrec hle

theorem decodeBlock_displays {path st tag labels body c fs cls ml} (hd : During env ext root node h0 r0 st)
    (hn : NodeFor h0 node tag labels) (hr : Stands env ext r0 (Cls.name cls) c)
    (hml : (ml : Option Nat).any (fun m => decide (m < labels.length)) = false) (hs : shows cls.fields labels body c fs) :
    ∃ st', decodeBlock rec path st node tag ⟨labels, some body⟩ cls ml = .ok ((c, fs), st') ∧
      During env ext root node h0 r0 st' := by
  obtain ⟨sub, hsub, hg⟩ := (hn.mono hd.heap).get hd.inv hd.node
  obtain ⟨st', h1, h2, h3, h4⟩ := hrec path st sub c fs cls.fields labels body hd.inv hd.root hsub hd.canon
    (fun k t hk => hd.ref k t (hle k t hk)) hs
  refine ⟨st', ?_, hd.next h2 h3 h4⟩
  have hr' : GoMap.get? st.ref cls.name = some (.ptr c (newFields env ext c)) := hd.ref _ _ hr
  simp only [decodeBlock, hg, hr', hml, h1, Bool.false_eq_true, if_false]

theorem listLoop_displays {path tag e first all} :
    ∀ {blks : List (List Bytes × Body)} {l : List Val} {j st}, During env ext root node h0 r0 st → (∀ blk ∈ blks, NodeFor h0 node tag blk.1) →
      List.Forall₂ (fun blk x => BlockDisplays env ext r0 shows (.slice e) e (some (.list (first :: all))) (fun _ _ => True) blk.2 blk.1 x)
        (blks.zipIdx j) l →
      ∃ st', listLoop env rec path node tag e first ((first :: all).drop j) (blks.map toBlk) st = .ok (l, st') ∧
        During env ext root node h0 r0 st'
  | [], _, j, st, hd, _, h => by cases h; exact ⟨st, by simp [listLoop], hd⟩
  | blk :: blks, _, j, st, hd, hn, h => by
    rw [List.zipIdx_cons] at h
    cases h with
    | @cons _ v _ l h1 h2 =>
    obtain ⟨c, fs, obj, hc, _, hh, hs⟩ := h1
    cases hc with
    | @given _ cls _ hg hr =>
    obtain ⟨st1, d1, hd1⟩ := decodeBlock_displays hrec hle (path := place path tag (blks.map toBlk)) (ml := none) hd (hn blk (by simp)) hr rfl hs
    have hhead : ((first :: all).drop j).headD first = cls := by
      cases hg with
      | nth h => simp only at h; simp [List.headD_eq_head?_getD, List.head?_drop, h]
      | beyond h => simp only at h; rw [List.drop_eq_nil_of_le (by simp; omega)]; rfl
    have ht : ((first :: all).drop j).tail = (first :: all).drop (j + 1) := by rw [List.tail_drop]
    obtain ⟨st2, d2, hd2⟩ := listLoop_displays (j := j + 1) (blks := blks) hd1 (fun b hb => hn b (by simp [hb])) h2
    refine ⟨st2, ?_, hd2⟩
    simp only [List.map_cons, listLoop, hhead, toBlk, ht] at d1 d2 ⊢
    rw [d1]
    simp only [store_ok hh]
    rw [d2]

theorem listMapLoop_displays {path tag e first all} :
    ∀ {blks l st acc}, During env ext root node h0 r0 st → (∀ blk ∈ blks, NodeFor h0 node tag blk.1) →
      List.Forall₂ (fun blk (x : Bytes × Val) => BlockDisplays env ext r0 shows (.map .str e) e (some (.list (first :: all)))
        (fun ls _ => ls.head? = some x.1) 0 blk x.2) blks l →
      ∃ st', listMapLoop env rec path node tag .str e first (blks.map toBlk) st acc =
        .ok (l.foldl (fun m e => insertK ltB e.1 e.2 m) acc, st') ∧ During env ext root node h0 r0 st'
  | [], _, st, acc, hd, _, h => by cases h; exact ⟨st, rfl, hd⟩
  | blk :: blks, _, st, acc, hd, hn, h => by
    cases h with
    | @cons _ v _ l h1 h2 =>
    obtain ⟨c, fs, obj, hc, hk, hh, hs⟩ := h1
    cases hc with
    | @given _ cls _ hg hr =>
    cases hg
    obtain ⟨st1, d1, hd1⟩ := decodeBlock_displays hrec hle (path := place path tag (blks.map toBlk)) (ml := none) hd (hn blk (by simp)) hr rfl hs
    obtain ⟨st2, d2, hd2⟩ := listMapLoop_displays (acc := insertK ltB v.1 v.2 acc) (blks := blks) hd1 (fun b hb => hn b (by simp [hb])) h2
    refine ⟨st2, ?_, hd2⟩
    obtain ⟨ls, body⟩ := blk
    cases ls with
    | nil => cases hk
    | cons key ls =>
      simp only [List.head?_cons, Option.some.injEq] at hk
      subst hk
      simp only [List.map_cons, listMapLoop, toBlk] at d1 d2 ⊢
      rw [d1]
      simp only [store_ok hh, if_true, List.foldl_cons]
      exact d2

omit hrec hle in
/-- The class of a label, whatever the iteration order. -/
theorem given_key {m : List (Bytes × Cls)} {e : Ty} {k : Nat} {key : Bytes} {cls : Cls} {ls : List Bytes} (h : Given (.map m) (.map .str e) k (key :: ls) cls)
    {ord : List Bytes} (hp : ord.Perm (GoMap.keys m)) : (GoMap.get? m key).or (firstOf ord m) = some cls ∧ ls = [] := by
  cases h with
  | key h => rw [h]; simp
  | other hne h =>
    refine ⟨?_, rfl⟩
    have hall : ∀ k c, GoMap.get? m k = some c → c = cls := fun k c hk => h _ (GoMap.get?_mem hk)
    cases hk : GoMap.get? m key with
    | some c => rw [hall _ _ hk]; rfl
    | none =>
      cases ord with
      | nil =>
        have := hp.symm.eq_nil
        cases m with
        | nil => exact absurd rfl hne
        | cons x m => simp [GoMap.keys] at this
      | cons k0 ord =>
        have hm : k0 ∈ GoMap.keys m := hp.mem_iff.1 (by simp)
        cases h0 : GoMap.get? m k0 with
        | none => exact absurd hm (GoMap.get?_eq_none.1 h0)
        | some c => simp [firstOf, h0, hall _ _ h0]

theorem mapLoop_displays {path tag e m first} (hf : ∀ k key ls cls, Given (.map m) (.map .str e) k (key :: ls) cls →
      (GoMap.get? m key).or first = some cls ∧ ls = []) :
    ∀ {blks l st acc}, During env ext root node h0 r0 st → (∀ blk ∈ blks, NodeFor h0 node tag blk.1) →
      List.Forall₂ (fun blk (x : Bytes × Val) => BlockDisplays env ext r0 shows (.map .str e) e (some (.map m))
        (fun ls _ => ls.head? = some x.1) 0 blk x.2) blks l →
      ∃ st', mapLoop env rec path node tag .str e m first (blks.map toBlk) st acc =
        .ok (l.foldl (fun m e => insertK ltB e.1 e.2 m) acc, st') ∧ During env ext root node h0 r0 st'
  | [], _, st, acc, hd, _, h => by cases h; exact ⟨st, rfl, hd⟩
  | blk :: blks, _, st, acc, hd, hn, h => by
    cases h with
    | @cons _ v _ l h1 h2 =>
    obtain ⟨c, fs, obj, hc, hk, hh, hs⟩ := h1
    cases hc with
    | @given _ cls _ hg hr =>
    obtain ⟨ls, body⟩ := blk
    cases ls with
    | nil => cases hk
    | cons key ls =>
    simp only [List.head?_cons, Option.some.injEq] at hk
    subst hk
    obtain ⟨hcls, rfl⟩ := hf _ _ _ _ hg
    obtain ⟨st1, d1, hd1⟩ := decodeBlock_displays hrec hle (path := place path tag (blks.map toBlk)) (ml := some 1) hd
      (hn ([v.1], body) (by simp)) hr (by simp) hs
    obtain ⟨st2, d2, hd2⟩ := mapLoop_displays hf (acc := insertK ltB v.1 v.2 acc) (blks := blks) hd1 (fun b hb => hn b (by simp [hb])) h2
    refine ⟨st2, ?_, hd2⟩
    simp only [List.map_cons, mapLoop, toBlk] at d1 d2 ⊢
    rw [hcls]
    simp only [orPanic]
    rw [d1]
    simp only [store_ok hh, if_true, List.foldl_cons]
    exact d2

omit hrec hle in
/-- The class of a pair of labels, whatever the iteration order. -/
theorem given_pair {m : List (Bytes × List (Bytes × Cls))} {e : Ty} {k : Nat} {cls : Cls} {ls : List Bytes} (h : Given (.map2 m) (.map .str2 e) k ls cls)
    {ord : List Bytes} (hp : ord.Perm (GoMap.keys m)) {ord2 : List (Bytes × Cls) → List Bytes} (hp2 : ∀ x, (ord2 x).Perm (GoMap.keys x)) :
    (GoMap.get? ((GoMap.get? m (ls.getD 0 [])).getD ((ord.head?.bind (GoMap.get? m)).getD [])) (ls.getD 1 [])).or
      ((ord.head?.bind (GoMap.get? m)).bind fun x => firstOf (ord2 x) x) = some cls := by
  cases h with
  | pair h1 h2 => rw [h1, Option.getD_some, h2]; rfl
  | otherPair hne h =>
    obtain ⟨x, hx⟩ : ∃ x, ord.head?.bind (GoMap.get? m) = some x := by
      cases ord with
      | nil =>
        have := hp.symm.eq_nil
        cases m with
        | nil => exact absurd rfl hne
        | cons x m => simp [GoMap.keys] at this
      | cons k0 ord =>
        have hm : k0 ∈ GoMap.keys m := hp.mem_iff.1 (by simp)
        cases h0 : GoMap.get? m k0 with
        | none => exact absurd hm (GoMap.get?_eq_none.1 h0)
        | some c => exact ⟨c, by simp [h0]⟩
    have hxm : ∃ k0, (k0, x) ∈ m := by
      cases ord with
      | nil => simp at hx
      | cons k0 ord => exact ⟨k0, GoMap.get?_mem (by simpa using hx)⟩
    obtain ⟨k0, hk0⟩ := hxm
    have hin : ∀ y, (∃ k, (k, y) ∈ m) → ∀ k c, GoMap.get? y k = some c → c = cls := by
      rintro y ⟨k, hk⟩ k' c hc
      exact (h _ hk).2 _ (GoMap.get?_mem hc)
    have hff : firstOf (ord2 x) x = some cls := by
      cases ho : ord2 x with
      | nil =>
        have := ((ho ▸ hp2 x : ([] : List Bytes).Perm _)).symm.eq_nil
        have hx0 := (h _ hk0).1
        cases x with
        | nil => exact absurd rfl hx0
        | cons y x => simp [GoMap.keys] at this
      | cons k1 r =>
        have hm : k1 ∈ GoMap.keys x := (hp2 x).mem_iff.1 (by simp [ho])
        cases h1 : GoMap.get? x k1 with
        | none => exact absurd hm (GoMap.get?_eq_none.1 h1)
        | some c => simp [firstOf, h1, hin x ⟨k0, hk0⟩ _ _ h1]
    rw [hx]
    simp only [Option.getD_some, Option.bind_some, hff]
    have hsel : ∃ k, (k, (GoMap.get? m (ls.getD 0 [])).getD x) ∈ m := by
      cases h1 : GoMap.get? m (ls.getD 0 []) with
      | none => exact ⟨k0, hk0⟩
      | some y => exact ⟨_, GoMap.get?_mem h1⟩
    cases h2 : GoMap.get? ((GoMap.get? m (ls.getD 0 [])).getD x) (ls.getD 1 []) with
    | none => rfl
    | some c => rw [hin _ hsel _ _ h2]; rfl

omit hrec hle in
theorem map2Key_pairOf {c fs labels k} (h : PairOf env k labels c) : map2Key labels (getLabels env c fs) = k := by
  obtain ⟨k0, k1⟩ := k
  obtain ⟨h1, h | ⟨h2, h3, h4⟩⟩ := h
  · obtain ⟨h2, rfl⟩ := h
    simp only at h1 h2
    simp [map2Key, h1, h2]
  · simp only at h1 h2 h3
    subst h2 h3
    have : labelFields env c = [] := by
      simp only [labelFields, List.filter_eq_nil_iff]
      intro f hf
      simpa using h4 f hf
    simp [map2Key, h1, getLabels, this]

omit hrec hle in
theorem pairOf_len {c labels k} (h : PairOf env k labels c) :
    (some 2 : Option Nat).any (fun m => decide (m < labels.length)) = false := by
  obtain ⟨_, ⟨_, rfl⟩ | ⟨_, rfl, _⟩⟩ := h <;> simp

theorem map2Loop_displays {path tag e} {m : List (Bytes × List (Bytes × Cls))} {first : Option (List (Bytes × Cls))} {ff : Option Cls}
    (hf : ∀ k ls cls, Given (.map2 m) (.map .str2 e) k ls cls →
      (GoMap.get? ((GoMap.get? m (ls.getD 0 [])).getD (first.getD [])) (ls.getD 1 [])).or ff = some cls) :
    ∀ {blks l st acc}, During env ext root node h0 r0 st → (∀ blk ∈ blks, NodeFor h0 node tag blk.1) →
      List.Forall₂ (fun blk (x : (Bytes × Bytes) × Val) => BlockDisplays env ext r0 shows (.map .str2 e) e (some (.map2 m))
        (PairOf env x.1) 0 blk x.2) blks l →
      ∃ st', map2Loop env rec path node tag .str2 e m first ff (blks.map toBlk) st acc =
        .ok (l.foldl (fun m e => insertK ltB2 e.1 e.2 m) acc, st') ∧ During env ext root node h0 r0 st'
  | [], _, st, acc, hd, _, h => by cases h; exact ⟨st, rfl, hd⟩
  | blk :: blks, _, st, acc, hd, hn, h => by
    cases h with
    | @cons _ v _ l h1 h2 =>
    obtain ⟨c, fs, obj, hc, hk, hh, hs⟩ := h1
    cases hc with
    | @given _ cls _ hg hr =>
    obtain ⟨st1, d1, hd1⟩ := decodeBlock_displays hrec hle (path := place path tag (blks.map toBlk)) (ml := some 2) hd (hn blk (by simp)) hr
      (pairOf_len hk) hs
    obtain ⟨st2, d2, hd2⟩ := map2Loop_displays hf (acc := insertK ltB2 v.1 v.2 acc) (blks := blks) hd1 (fun b hb => hn b (by simp [hb])) h2
    refine ⟨st2, ?_, hd2⟩
    have hcls := hf _ _ _ hg
    simp only [List.map_cons, map2Loop, toBlk] at d1 d2 ⊢
    rw [hcls]
    simp only [orPanic]
    rw [d1]
    simp only [store_ok hh, if_true, List.foldl_cons, map2Key_pairOf hk]
    exact d2

/-- A field with a specification of the caller. -/
theorem oriValue_given (hord : ∀ p l, (ext.ord p l).Perm l) {path tag ty spec blks v st} (hd : During env ext root node h0 r0 st)
    (hn : ∀ blk ∈ blks, NodeFor h0 node tag blk.1) (hne : blks ≠ []) (h : BlocksDisplay env ext r0 shows ty (some spec) blks v) :
    ∃ st', oriValue env ext rec path node tag ty spec (blks.map toBlk) st = .ok (some v, st') ∧ During env ext root node h0 r0 st' := by
  rcases h with ⟨h, _⟩ | ⟨_, h⟩
  · exact absurd h hne
  have single : (∃ blk, blks = [blk] ∧ BlockDisplays env ext r0 shows ty ty (some spec) (fun _ _ => True) 0 blk v) →
      (∀ e, ty ≠ .slice e) → (∀ kt e, ty ≠ .map kt e) →
      ∃ st', oriValue env ext rec path node tag ty spec (blks.map toBlk) st = .ok (some v, st') ∧ During env ext root node h0 r0 st' := by
    rintro ⟨⟨ls, body⟩, rfl, c, fs, obj, hc, _, hh, hs⟩ n1 n2
    cases hc with
    | @given _ cls _ hg hr =>
    cases hg with
    | single =>
      obtain ⟨st1, d1, hd1⟩ := decodeBlock_displays hrec hle (path := place path tag []) (ml := none) hd (hn (ls, body) (by simp)) hr rfl hs
      refine ⟨st1, ?_, hd1⟩
      simp only [oriValue, List.map_cons, List.map_nil, toBlk, d1, store_ok hh, Except.map]
    | nth => exact absurd rfl (n1 _)
    | beyond => exact absurd rfl (n1 _)
    | first => exact absurd rfl (n2 _ _)
    | key => exact absurd rfl (n2 _ _)
    | other => exact absurd rfl (n2 _ _)
    | pair => exact absurd rfl (n2 _ _)
    | otherPair => exact absurd rfl (n2 _ _)
  cases ty with
  | str => exact single h (by simp) (by simp)
  | leaf i => exact single h (by simp) (by simp)
  | struct d => exact single h (by simp) (by simp)
  | any => exact single h (by simp) (by simp)
  | iface i => exact single h (by simp) (by simp)
  | ptr t => exact single h (by simp) (by simp)
  | slice e =>
    obtain ⟨l, rfl, hf⟩ := h
    have hlist : ∃ first all, spec = .list (first :: all) := by
      cases blks with
      | nil => exact absurd rfl hne
      | cons blk blks =>
        rw [List.zipIdx_cons] at hf
        cases hf with
        | cons h1 _ =>
          obtain ⟨c, fs, obj, hc, _⟩ := h1
          cases hc with
          | given hg _ =>
            cases hg with
            | single n1 _ => exact absurd rfl (n1 _)
            | @nth cs _ _ _ _ hh =>
              cases cs with
              | nil => simp at hh
              | cons a cs => exact ⟨_, _, rfl⟩
            | beyond => exact ⟨_, _, rfl⟩
    obtain ⟨first, all, rfl⟩ := hlist
    obtain ⟨st1, d1, hd1⟩ := listLoop_displays hrec hle (path := path) (tag := tag) (j := 0) hd hn hf
    refine ⟨st1, ?_, hd1⟩
    simp only [List.drop_zero] at d1
    simp only [oriValue, d1, Except.map]
  | map kt e =>
    cases kt with
    | str =>
      obtain ⟨m, l, rfl, hsort, hp, hf⟩ := h
      have hkind : (∃ first all, spec = .list (first :: all)) ∨ ∃ m, spec = .map m := by
        cases blks with
        | nil => exact absurd rfl hne
        | cons blk blks =>
          cases hf with
          | cons h1 _ =>
            obtain ⟨ls, body⟩ := blk
            obtain ⟨c, fs, obj, hc, _⟩ := h1
            cases hc with
            | given hg _ =>
              cases hg with
              | single _ n2 => exact absurd rfl (n2 _ _)
              | first => exact .inl ⟨_, _, rfl⟩
              | key => exact .inr ⟨_, rfl⟩
              | other => exact .inr ⟨_, rfl⟩
      rcases hkind with ⟨first, all, rfl⟩ | ⟨ms, rfl⟩
      · obtain ⟨st1, d1, hd1⟩ := listMapLoop_displays hrec hle (path := path) (tag := tag) (acc := []) hd hn hf
        refine ⟨st1, ?_, hd1⟩
        rw [Det.foldl_insertK_perm Det.ltB_lin hp hsort] at d1
        simp only [oriValue, d1, Except.map]
      · obtain ⟨st1, d1, hd1⟩ := mapLoop_displays hrec hle (path := path) (tag := tag)
          (first := firstOf (ext.ord (path ++ [tag]) (GoMap.keys ms)) ms)
          (fun k key ls cls hg => given_key hg (hord _ _)) (acc := []) hd hn hf
        refine ⟨st1, ?_, hd1⟩
        rw [Det.foldl_insertK_perm Det.ltB_lin hp hsort] at d1
        simp only [oriValue, d1, Except.map]
    | str2 =>
      obtain ⟨m, l, rfl, hsort, hp, hf⟩ := h
      have hkind : ∃ m, spec = .map2 m := by
        cases blks with
        | nil => exact absurd rfl hne
        | cons blk blks =>
          cases hf with
          | cons h1 _ =>
            obtain ⟨ls, body⟩ := blk
            obtain ⟨c, fs, obj, hc, _⟩ := h1
            cases hc with
            | given hg _ =>
              cases hg with
              | single _ n2 => exact absurd rfl (n2 _ _)
              | pair => exact ⟨_, rfl⟩
              | otherPair => exact ⟨_, rfl⟩
      obtain ⟨ms, rfl⟩ := hkind
      obtain ⟨st1, d1, hd1⟩ := map2Loop_displays hrec hle (path := path) (tag := tag)
        (first := (ext.ord (path ++ [tag]) (GoMap.keys ms)).head?.bind (GoMap.get? ms))
        (ff := ((ext.ord (path ++ [tag]) (GoMap.keys ms)).head?.bind (GoMap.get? ms)).bind fun x =>
          firstOf (ext.ord (path ++ [tag, tag]) (GoMap.keys x)) x)
        (fun k ls cls hg => given_pair hg (hord _ _) (fun x => hord _ _)) (acc := []) hd hn hf
      refine ⟨st1, ?_, hd1⟩
      rw [Det.foldl_insertK_perm Det.ltB2_lin hp hsort] at d1
      simp only [oriValue, d1, Except.map]
    | other =>
      obtain ⟨blk, _, c, fs, obj, _, _, hh, _⟩ := h
      cases hh

omit hrec hle in
theorem BlocksDisplay.imp {ref ref' : GoMap Bytes Tmpl} {ty : Ty} {spec spec' : Option CVal} {blks v}
    (hi : ∀ e k ls c obj, (ty = .slice e ∨ ty = .map .str e ∨ ty = .map .str2 e ∨ e = ty) →
      ClassIs env ext ref ty e k ls spec c obj → ClassIs env ext ref' ty e k ls spec' c obj)
    (h : BlocksDisplay env ext ref shows ty spec blks v) : BlocksDisplay env ext ref' shows ty spec' blks v := by
  have one : ∀ {e ok k blk v}, (ty = .slice e ∨ ty = .map .str e ∨ ty = .map .str2 e ∨ e = ty) →
      BlockDisplays env ext ref shows ty e spec ok k blk v → BlockDisplays env ext ref' shows ty e spec' ok k blk v := by
    rintro e ok k blk v he ⟨c, fs, obj, hc, h⟩
    exact ⟨c, fs, obj, hi e k blk.1 c obj he hc, h⟩
  rcases h with h | ⟨hne, h⟩
  · exact .inl h
  refine .inr ⟨hne, ?_⟩
  have single : (∃ blk, blks = [blk] ∧ BlockDisplays env ext ref shows ty ty spec (fun _ _ => True) 0 blk v) →
      ∃ blk, blks = [blk] ∧ BlockDisplays env ext ref' shows ty ty spec' (fun _ _ => True) 0 blk v := by
    rintro ⟨blk, e, h⟩
    exact ⟨blk, e, one (by simp) h⟩
  cases ty with
  | str => exact single h
  | leaf i => exact single h
  | struct d => exact single h
  | any => exact single h
  | iface i => exact single h
  | ptr t => exact single h
  | slice e =>
    obtain ⟨l, rfl, hf⟩ := h
    exact ⟨l, rfl, hf.imp fun _ _ h => one (by simp) h⟩
  | map kt e =>
    cases kt with
    | str =>
      obtain ⟨m, l, rfl, h1, h2, hf⟩ := h
      exact ⟨m, l, rfl, h1, h2, hf.imp fun _ _ h => one (by simp) h⟩
    | str2 =>
      obtain ⟨m, l, rfl, h1, h2, hf⟩ := h
      exact ⟨m, l, rfl, h1, h2, hf.imp fun _ _ h => one (by simp) h⟩
    | other => exact single h

omit hrec hle in
/-- The specification made for a field without one. -/
theorem BlocksDisplay.auto {ty : Ty} {c nm spec blks v} (hslot : Slot env ty c nm spec) (hr : Stands env ext r0 nm c)
    (h : BlocksDisplay env ext ref shows ty none blks v) : BlocksDisplay env ext r0 shows ty (some spec) blks v := by
  refine h.imp ?_
  intro e k ls c' obj he hc
  cases hc with
  | own hst' =>
  cases hslot with
  | single hst =>
    have : e = ty := by
      rcases he with rfl | rfl | rfl | h
      · cases hst
      · cases hst
      · cases hst
      · exact h
    subst this
    rw [hst] at hst'; cases hst'
    refine .given (cls := .mk _ []) (.single ?_ ?_) hr
    · rintro e' rfl; cases hst
    · rintro kt e' rfl; cases hst
  | @slice e' _ hst =>
    rcases he with he | he | he | he
    · cases he
      rw [hst] at hst'; cases hst'
      refine .given (cls := .mk _ []) ?_ hr
      cases k with
      | zero => exact .nth rfl
      | succ k => exact .beyond (by simp)
    · cases he
    · cases he
    · subst he; cases hst'
  | @map e' _ hst =>
    rcases he with he | he | he | he
    · cases he
    · cases he
      rw [hst] at hst'; cases hst'
      exact .given (cls := .mk _ []) .first hr
    · cases he
    · subst he; cases hst'
  | @map2 e' _ hst =>
    rcases he with he | he | he | he
    · cases he
    · cases he
    · cases he
      rw [hst] at hst'; cases hst'
      exact .given (cls := .mk _ []) (.otherPair (by simp) (by simp)) hr
    · subst he; cases hst'

omit hrec hle in
theorem BlocksDisplay.mono (hle : RefLe ref r0) {ty : Ty} {spec blks v}
    (h : BlocksDisplay env ext ref shows ty spec blks v) : BlocksDisplay env ext r0 shows ty spec blks v := by
  refine h.imp ?_
  intro e k ls c' obj _ hc
  cases hc with
  | own h => exact .own h
  | given h1 h2 => exact .given h1 (hle _ _ h2)

theorem oriStep_putsO (hord : ∀ p l, (ext.ord p l).Perm l) {lf : LF} {nulls body vals path fs0 v K} {f : Fld} {spec}
    (hob : GoMap.get? lf.obj f.name = some spec) (hno : routed nulls lf vals .ori f.tag = none)
    (hn : ∀ x ∈ body.blocks, NodeFor h0 node x.1 x.2.1) (h : BlocksDisplay env ext r0 shows f.ty (some spec) (blocksOf body f.tag) v)
    (h0' : GoMap.get? fs0 f.name = some (ext.zero f.ty)) (hm : f.name ∈ K) :
    Puts (During env ext root node h0 r0) K fs0 f.name v (oriStep env ext rec nulls lf body vals path node f) := by
  have hob' : oriBlocks ext nulls lf body vals f.tag = (blocksOf body f.tag).map toBlk := by
    simp only [oriBlocks, hno, List.nil_append, blocksOf, List.map_map]
    rfl
  intro fs st hd hk hf
  by_cases hne : blocksOf body f.tag = []
  · rcases h with ⟨_, rfl⟩ | ⟨h, _⟩
    · refine ⟨fs, st, ?_, hd, hk, by rw [hf, h0'], fun _ _ => rfl⟩
      simp only [oriStep, hob', hne, List.map_nil]
    · exact absurd hne h
  · obtain ⟨st', d1, hd1⟩ := oriValue_given hrec hle hord (path := path) (tag := f.tag) hd (blks := blocksOf body f.tag) (by
      intro blk hb
      obtain ⟨x, hx, rfl⟩ := List.mem_map.1 hb
      rw [List.mem_filter] at hx
      have he : x.1 = f.tag := by simpa using hx.2
      rw [← he]
      exact hn x hx.1) hne h
    obtain ⟨fs', s1, s2⟩ := setF_ok (name := f.name) (v := v) (fs := fs) (by rw [hk]; exact hm)
    refine ⟨fs', st', ?_, hd1, by rw [s2, hk], by rw [get?_setF s1, if_pos rfl], fun x hx => by rw [get?_setF s1, if_neg hx]⟩
    cases hb : blocksOf body f.tag with
    | nil => exact absurd hb hne
    | cons blk blks =>
      rw [hb, List.map_cons] at d1
      simp only [oriStep, hob', hb, List.map_cons, hob, Option.getD_some, d1, s1, Except.map]

end

/-! ## The whole -/

theorem get?_newO {env ext emb c obj} (hr : Orderly env emb obj c) {f : Fld} (hf : f ∈ (env.flat emb c).fields) :
    GoMap.get? (newFields env ext c) f.name = some (ext.zero f.ty) := by
  refine GoMap.mem_get? ?_ ?_
  · have hp : (env.struct c).promoted = _ := hr.promoted
    simp only [GoMap.keys, newFields, hp, List.map_map]
    exact hr.names
  · have hp : (env.struct c).promoted = _ := hr.promoted
    simp only [newFields, hp, List.map_map]
    exact List.mem_map.2 ⟨f, hf, rfl⟩

/-- The four lists of fields have different names. -/
theorem names_disjointO {env : Env} {emb c : Nat} {obj} (hr : Orderly env emb obj c) :
    (((env.flat emb c).fields.filter isLabelF).map Fld.name ++ (((env.flat emb c).fields.filter (isPlainO obj)).map Fld.name ++
      (((env.flat emb c).fields.filter (isAnyO obj)).map Fld.name ++
      ((env.flat emb c).fields.filter (isBlockO obj)).map Fld.name))).Nodup := by
  have key : ∀ {p q : Fld → Bool}, (∀ f ∈ (env.flat emb c).fields, p f = true → q f = true → False) →
      ∀ a ∈ ((env.flat emb c).fields.filter p).map Fld.name, ∀ x ∈ ((env.flat emb c).fields.filter q).map Fld.name, a ≠ x := by
    intro p q hpq a ha c hc e
    obtain ⟨f, hf, rfl⟩ := List.mem_map.1 ha
    obtain ⟨g, hg, rfl⟩ := List.mem_map.1 hc
    rw [List.mem_filter] at hf hg
    have := map_inj hr.names hf.1 hg.1 e
    subst this
    exact hpq f hf.1 hf.2 hg.2
  have h1 : ∀ f ∈ (env.flat emb c).fields, isLabelF f = true → isPlainO obj f = true → False := by
    intro f _ h h'; simp [isPlainO, h] at h'
  have h2 : ∀ f ∈ (env.flat emb c).fields, isLabelF f = true → isBlockO obj f = true → False := by
    intro f _ h h'; simp [isBlockO, h] at h'
  have h3 : ∀ f ∈ (env.flat emb c).fields, isPlainO obj f = true → isBlockO obj f = true → False := by
    intro f hf h h'
    have hp := KindsO.plain (hr.kinds f hf) h
    rw [hp.isO.2.2.1] at h'; cases h'
  have h4 : ∀ f ∈ (env.flat emb c).fields, isLabelF f = true → isAnyO obj f = true → False := by
    intro f _ h h'; simp [isAnyO, h] at h'
  have h5 : ∀ f ∈ (env.flat emb c).fields, isPlainO obj f = true → isAnyO obj f = true → False := by
    intro f hf h h'
    have hp := KindsO.plain (hr.kinds f hf) h
    rw [hp.isO.2.2.2] at h'; cases h'
  have h6 : ∀ f ∈ (env.flat emb c).fields, isAnyO obj f = true → isBlockO obj f = true → False := by
    intro f hf h h'
    have hp := KindsO.block (hr.kinds f hf) h'
    rw [hp.isO.2.2.2] at h; cases h
  refine List.nodup_append.2 ⟨nodup_filter hr.names _, List.nodup_append.2 ⟨nodup_filter hr.names _,
    List.nodup_append.2 ⟨nodup_filter hr.names _, nodup_filter hr.names _, key h6⟩, ?_⟩, ?_⟩
  · intro a ha c hc
    rcases List.mem_append.1 hc with hc | hc
    · exact key h5 a ha c hc
    · exact key h3 a ha c hc
  · intro a ha c hc
    rcases List.mem_append.1 hc with hc | hc
    · exact key h1 a ha c hc
    · rcases List.mem_append.1 hc with hc | hc
      · exact key h4 a ha c hc
      · exact key h2 a ha c hc

/-- A generic field gets what the document shows. -/
theorem decStep_putsO {env ext root node h0 r0 lf nulls body vals fs0 v K} {f : Fld} (hty : f.ty = .slice .any ∨ f.ty = .map .str .any)
    (hrt : routed nulls lf vals .dec f.tag = if f.tag ∈ GoMap.keys body.attrs then some (litVal ext body.attrs f.tag) else none)
    (hno : hasTag lf.oris f.tag = false) (h : AnyShows ext body f v)
    (h0' : GoMap.get? fs0 f.name = some (ext.zero f.ty)) (hm : f.name ∈ K) :
    Puts (During env ext root node h0 r0) K fs0 f.name v (decStep ext nulls lf body vals node f) := by
  intro fs st hd hk hf
  have hbl : body.blocks.filter (fun x => x.1 = f.tag && !hasTag lf.oris x.1) = body.blocks.filter (fun x => x.1 = f.tag) := by
    refine List.filter_congr fun x _ => ?_
    by_cases e : x.1 = f.tag
    · simp [e, hno]
    · simp [e]
  have fin : ∀ {dec : Heap Cty → Nat → Except Fail (Val × Heap Cty)}, GivesAny dec v →
      (∀ h', dec st.heap node = .ok (v, h') → decStep ext nulls lf body vals node f fs st = (setF f.name v fs).map fun fs => (fs, { st with heap := h' })) →
      ∃ fs' st', decStep ext nulls lf body vals node f fs st = .ok (fs', st') ∧ During env ext root node h0 r0 st' ∧ fs'.map Prod.fst = K ∧
        GoMap.get? fs' f.name = some v ∧ ∀ x, x ≠ f.name → GoMap.get? fs' x = GoMap.get? fs x := by
    intro dec hg he
    obtain ⟨h', h1, h2, h3⟩ := hg st.heap node hd.inv hd.node
    obtain ⟨fs', s1, s2⟩ := setF_ok (name := f.name) (v := v) (fs := fs) (by rw [hk]; exact hm)
    refine ⟨fs', { st with heap := h' }, ?_, hd.next h2 h3 (RefStep.refl _ _ _), by rw [s2, hk], by rw [get?_setF s1, if_pos rfl],
      fun x hx => by rw [get?_setF s1, if_neg hx]⟩
    rw [he h' h1, s1]
    rfl
  unfold AnyShows at h
  cases ha : GoMap.get? body.attrs f.tag with
  | some a =>
    have hmem : f.tag ∈ GoMap.keys body.attrs := List.mem_map.2 ⟨_, GoMap.get?_mem ha, rfl⟩
    rw [if_pos hmem] at hrt
    cases hb : blocksOf body f.tag with
    | cons x l => rw [ha, hb] at h; exact h.elim
    | nil =>
      rw [ha, hb] at h
      refine fin h.2.2 ?_
      intro h' h1
      rcases hty with ht | ht <;> simp only [ht, Ty.isSlice] at h1 <;> simp [decStep, hrt, ha, ht, h1]
  | none =>
    have hmem : f.tag ∉ GoMap.keys body.attrs := GoMap.get?_eq_none.1 ha
    rw [if_neg hmem] at hrt
    rw [ha] at h
    have hb : blocksOf body f.tag = (body.blocks.filter fun x => x.1 = f.tag).map Prod.snd := rfl
    cases hl : body.blocks.filter (fun x => x.1 = f.tag) with
    | nil =>
      rw [hl] at hb
      simp only [hb, List.map_nil] at h
      subst h
      refine ⟨fs, st, ?_, hd, hk, by rw [hf, h0'], fun _ _ => rfl⟩
      simp only [decStep, hrt, hbl, hl]
    | cons x l =>
      obtain ⟨k, ls, blk⟩ := x
      rw [hl] at hb
      simp only [hb, List.map_cons] at h
      cases l with
      | cons _ _ => cases ls <;> exact h.elim
      | nil =>
        cases ls with
        | cons _ _ => exact h.elim
        | nil =>
          refine fin h ?_
          intro h' h1
          rcases hty with ht | ht <;> simp only [ht, Ty.isSlice] at h1 <;> simp [decStep, hrt, hbl, hl, ht, h1]

/-- If the calls for blocks decode what the blocks show, the call for the struct decodes what the document shows. -/
theorem decodeStruct_displays {env emb ext root ref shows rec m} (hord : ∀ p l, (ext.ord p l).Perm l) (hz : ext.zero .str = .str [])
    (ih : RecDisplays env ext root ref shows rec) (hnm : emb ≤ m) :
    RecDisplays env ext root ref (AndLabels env emb (DisplaysBy env emb ext ref shows)) (decodeStruct env ext root m rec) := by
    intro path st node c fs obj labels body hi hroot hnode hcan hle hshl
    obtain ⟨⟨hreg, hkeys, hattrs, hnd, hblocks, hfields⟩, hlab⟩ := hshl
    -- the document
    have hplain : ∀ f ∈ (env.flat emb c).fields, FreeFld obj f → ∃ v, GoMap.get? fs f.name = some v ∧ AttrShows ext body f v := by
      intro f hf hp
      obtain ⟨v, h1, h2⟩ := hfields f hf
      exact ⟨v, h1, h2.plain hp⟩
    have hget : ∀ a ∈ body.attrs, GoMap.get? body.attrs a.1 = some a.2 := fun a ha => GoMap.mem_get? hnd ha
    have hattr : ∀ a ∈ body.attrs, Lit a.2.expr ∧ ∃ cv, evalE ext [] a.2.expr = .ok cv ∧ cv ≠ .null := by
      intro a ha
      obtain ⟨f, hf, hp | hp, e⟩ := hattrs a ha
      · obtain ⟨v, _, h2⟩ := hplain f hf hp
        simp only [AttrShows, e, hget a ha] at h2
        obtain ⟨h3, cv, h4, h5, _⟩ := h2
        exact ⟨h3, cv, h4, h5⟩
      · obtain ⟨v, _, h2⟩ := hfields f hf
        have h3 := h2.generic hp
        unfold AnyShows at h3
        rw [e, hget a ha] at h3
        split at h3
        · rename_i ha' _
          cases ha'
          exact ⟨h3.1, h3.2.1⟩
        · rename_i ha' _; cases ha'
        · rename_i ha' _; cases ha'
        · exact h3.elim
    have hlit : ∀ a ∈ body.attrs, Lit a.2.expr := fun a ha => (hattr a ha).1
    have hks : ∀ k, k ∈ ext.ord (path ++ [b "attributes"]) (GoMap.keys body.attrs) ↔ k ∈ GoMap.keys body.attrs :=
      fun k => (hord _ _).mem_iff
    obtain ⟨h1, he1, hi1, hl1⟩ := evalAttrs_lit (ext := ext) (root := root) (node := node) hlit
      (ks := ext.ord (path ++ [b "attributes"]) (GoMap.keys body.attrs)) (fun k hk => (hks k).1 hk) hi hroot hnode
    obtain ⟨h2, he2, hi2, hl2, hnf⟩ := addBlockNodes_sim (node := node) (blocks := body.blocks) hi1 (Nat.lt_of_lt_of_le hnode hl1.length)
    -- values
    generalize hvals : (ext.ord (path ++ [b "attributes"]) (GoMap.keys body.attrs)).map (fun k => (k, litVal ext body.attrs k)) = vals at he1
    have hgv : ∀ k, GoMap.get? vals k = if k ∈ GoMap.keys body.attrs then some (litVal ext body.attrs k) else none := by
      intro k
      rw [← hvals, get?_map_self]
      simp only [hks]
    have hlv : ∀ a ∈ body.attrs, ∀ cv, evalE ext [] a.2.expr = .ok cv → litVal ext body.attrs a.1 = cv := by
      intro a ha cv hcv
      simp only [litVal, hget a ha, hcv]
    have hnull : nullKeys vals = [] := by
      simp only [nullKeys, List.map_eq_nil_iff, List.filter_eq_nil_iff, ← hvals, List.mem_map]
      rintro e ⟨k, hk, rfl⟩
      obtain ⟨a, ha, rfl⟩ := List.mem_map.1 ((hks k).1 hk)
      obtain ⟨_, cv, h4, h5⟩ := hattr a ha
      simp only [hlv a ha cv h4]
      cases cv <;> simp_all [isNull]
    -- fields
    obtain ⟨lf, hlf, hso⟩ := loopFields_sortsO (env := env) (ext := ext) m (lf := ⟨[], [], [], [], obj, st.ref⟩) hreg.kinds hreg.names
      (fun f _ => rfl) hcan
    replace hlf := (loopFields_flat (env := env) (ext := ext) (emb := emb) (m := m) (l := (env.struct c).fields) (by omega)
      (fun f hf => KindsO.tagged (hreg.kinds f hf))
      (fun g hg => ⟨hreg.apart g hg, hreg.free g hg⟩)).trans hlf
    have hrs : RefStep env ext st.ref lf.ref := loopFields_step _ _ _ _ hlf
    have hL : lf.labels = (env.flat emb c).fields.filter isLabelF := by simpa using hso.labels
    have hN : lf.news = (env.flat emb c).fields.filter (isPlainO obj) := by simpa using hso.news
    have hO : lf.oris = (env.flat emb c).fields.filter (isBlockO obj) := by simpa using hso.oris
    have hD : lf.decs = (env.flat emb c).fields.filter (isAnyO obj) := by simpa using hso.decs
    have htagOf : ∀ {p : Fld → Bool} {l : List Fld}, l = (env.flat emb c).fields.filter p → ∀ f ∈ (env.flat emb c).fields, hasTag l f.tag = p f := by
      intro p l hl f hf
      cases hp : p f with
      | true => exact hasTag_iff.2 ⟨f, by rw [hl, List.mem_filter]; exact ⟨hf, hp⟩, rfl⟩
      | false =>
        rw [Bool.eq_false_iff]
        intro ht
        obtain ⟨g, hg, e⟩ := hasTag_iff.1 ht
        rw [hl, List.mem_filter] at hg
        rw [tag_inj hreg.tags hg.1 hf e, hp] at hg
        exact absurd hg.2 (by simp)
    have hroute : ∀ f ∈ (env.flat emb c).fields, FreeFld obj f → route [] lf f.tag = .plain := by
      intro f hf hp
      simp only [route, htagOf hL f hf, htagOf hO f hf, htagOf hD f hf, hp.isO, List.not_mem_nil, Bool.false_eq_true, if_false]
    have hrouteA : ∀ f ∈ (env.flat emb c).fields, AnyFld obj f → route [] lf f.tag = .dec := by
      intro f hf hp
      simp only [route, htagOf hD f hf, hp.isO, List.not_mem_nil, if_false, if_true]
    have hval : ∀ f ∈ (env.flat emb c).fields, FreeFld obj f → routed [] lf vals .plain f.tag = GoMap.get? vals f.tag := by
      intro f hf hp
      simp [routed, hroute f hf hp]
    have hother : ∀ k r, r ≠ .plain → r ≠ .dec → routed [] lf vals r k = none := by
      intro k r hr hr2
      simp only [routed]
      split
      · rename_i hr'
        rw [hgv]
        split
        · rename_i hk
          obtain ⟨a, ha, rfl⟩ := List.mem_map.1 hk
          obtain ⟨f, hf, hp | hp, e⟩ := hattrs a ha
          · rw [← e, hroute f hf hp] at hr'
            exact absurd hr'.symm hr
          · rw [← e, hrouteA f hf hp] at hr'
            exact absurd hr'.symm hr2
        · rfl
      · rfl
    obtain ⟨h3, he3, hi3, hl3, _⟩ := oriAttrs_sim (nulls := []) (lf := lf) (vals := vals) (node := node)
      (ks := ext.ord (path ++ [b "refresh"]) (GoMap.keys body.attrs)) hi2
      (Nat.lt_of_lt_of_le hnode (hl1.trans hl2).length) (fun k _ cv h => by rw [hother k .ori (by simp) (by simp)] at h; cases h)
    -- gohcl
    let target : Fld → Val := fun f => (GoMap.get? fs f.name).getD (.leaf 0)
    have htarget : ∀ f ∈ (env.flat emb c).fields, GoMap.get? fs f.name = some (target f) := by
      intro f hf
      obtain ⟨v, hv, _⟩ := hfields f hf
      simp only [target, hv, Option.getD_some]
    have hvok : ∀ f ∈ (env.flat emb c).fields, FreeFld obj f → ValOk ext (routed [] lf vals .plain) target f ∧
        (GoMap.get? vals f.tag = none → f.mayLack) := by
      intro f hf hp
      obtain ⟨v, hv, hs⟩ := hplain f hf hp
      rw [htarget f hf] at hv
      cases hv
      simp only [ValOk, hval f hf hp, hgv]
      cases ha : GoMap.get? body.attrs f.tag with
      | none =>
        simp only [if_neg (GoMap.get?_eq_none.1 ha)]
        simp only [AttrShows, ha] at hs
        exact ⟨Or.inl ⟨trivial, hs.2⟩, fun _ => hs.1⟩
      | some a =>
        have hmem := GoMap.get?_mem ha
        have hmem' : f.tag ∈ GoMap.keys body.attrs := List.mem_map.2 ⟨_, hmem, rfl⟩
        simp only [if_pos hmem']
        simp only [AttrShows, ha] at hs
        obtain ⟨_, cv, h4, _, h6⟩ := hs
        refine ⟨Or.inr ⟨cv, ?_, h6⟩, fun h => by cases h⟩
        rw [← hlv _ hmem cv h4]
    have hgo : gohclDecode ext lf body (routed [] lf vals .plain) = .ok (lf.news.map target) := by
      simp only [gohclDecode]
      rw [if_neg, if_neg, if_neg, if_neg, if_neg]
      · rw [hN]
        exact decodeLeaves_shows (fun f hf => by
          rw [List.mem_filter] at hf
          exact (hvok f hf.1 (KindsO.plain (hreg.kinds f hf.1) hf.2)).1) (nodup_filter hreg.tags _)
      · intro h
        obtain ⟨f, hf, h⟩ := List.any_eq_true.1 h
        rw [hN, List.mem_filter] at hf
        have hp := KindsO.plain (hreg.kinds f hf.1) hf.2
        simp only [hval f hf.1 hp, Bool.and_eq_true, Option.isNone_iff_eq_none, decide_eq_true_eq] at h
        exact required_lack h.1 ((hvok f hf.1 hp).2 h.2)
      · intro h
        obtain ⟨x, hx, h⟩ := List.any_eq_true.1 h
        obtain ⟨f, hf, hb | hb, e⟩ := hblocks x hx
        · rw [← e, htagOf hO f hf, hb.isO.2.2.1] at h
          simp at h
        · rw [← e, htagOf hD f hf, hb.isO.2.2.2] at h
          simp at h
      · intro h
        obtain ⟨x, hx, h⟩ := List.any_eq_true.1 h
        obtain ⟨f, hf, hb | hb, e⟩ := hattrs x hx
        · rw [← e, htagOf hN f hf, hb.isO.2.1] at h
          simp at h
        · rw [← e, routed, if_neg (by rw [hrouteA f hf hb]; simp)] at h
          simp at h
      · intro h
        obtain ⟨f, hf, h⟩ := List.any_eq_true.1 h
        rw [hN, List.mem_filter] at hf
        have hp := KindsO.plain (hreg.kinds f hf.1) hf.2
        have hw := hp.1.what
        simp only [supported, Bool.not_eq_true', Bool.or_eq_false_iff, decide_eq_false_iff_not] at h
        rcases hw with hw | hw | hw
        · exact h.1.1 hw
        · exact h.1.2 hw
        · exact h.2 hw
      · rw [hN]
        exact fun h => h (nodup_filter hreg.names _)
    have hprep : prepare env ext m root st node c obj path body = .ok ⟨vals, lf, lf.news.map target, h3⟩ := by
      simp only [prepare, prelude, he1, he2, hnull, hlf, he3, hgo]
    -- assignments
    let K := (env.flat emb c).fields.map Fld.name
    let fs0 := newFields env ext c
    have hfs0 : fs0.map Prod.fst = K := by
      have hp : (env.struct c).promoted = _ := hreg.promoted
      simp only [fs0, K, newFields, hp, List.map_map]
      rfl
    have hinit : During env ext root node h3 lf.ref ⟨h3, lf.ref⟩ :=
      ⟨hi3, Nat.lt_of_lt_of_le hroot ((hl1.trans hl2).trans hl3).length, Nat.lt_of_lt_of_le hnode ((hl1.trans hl2).trans hl3).length,
        .refl _, hrs.canonical hcan, RefLe.refl _, RefStep.refl _ _ _⟩
    let items : List (Bytes × Val × Step) :=
      (if labels.length = lf.labels.length then (lf.labels.zip labels).map fun x => (x.1.name, Val.str x.2, labelStep x) else []) ++
      lf.news.map (fun f => (f.name, target f, newStep (routed [] lf vals .plain) (f, target f))) ++
      lf.decs.map (fun f => (f.name, target f, decStep ext [] lf body vals node f)) ++
      lf.oris.map (fun f => (f.name, target f, oriStep env ext rec [] lf body vals path node f))
    have hitems : items.map (fun x => x.2.2) = labelSteps lf labels ++
        (lf.news.zip (lf.news.map target)).map (newStep (routed [] lf vals .plain)) ++
        lf.decs.map (decStep ext [] lf body vals node) ++
        lf.oris.map (oriStep env ext rec [] lf body vals path node) := by
      simp only [items, labelSteps, zip_map, List.map_append, List.map_map]
      congr 3
      split
      · simp only [List.map_map]; rfl
      · rfl
    have hown : ∀ f, f ∈ lf.labels → f ∈ (env.flat emb c).fields ∧ LabelFld f := by
      intro f hf
      rw [hL, List.mem_filter] at hf
      exact ⟨hf.1, KindsO.label (hreg.kinds f hf.1) hf.2⟩
    have hlabels : labels.length = lf.labels.length → ∀ x ∈ lf.labels.zip labels, GoMap.get? fs x.1.name = some (.str x.2) := by
      intro hlen
      refine zip_get ?_
      rw [hL] at hlen ⊢
      exact hlab.1 hlen
    have hputs : ∀ x ∈ items, Puts (During env ext root node h3 lf.ref) K fs0 x.1 x.2.1 x.2.2 := by
      intro x hx
      simp only [items, List.mem_append] at hx
      rcases hx with ((hx | hx) | hx) | hx
      · split at hx
        · obtain ⟨y, hy, rfl⟩ := List.mem_map.1 hx
          have hy1 := List.of_mem_zip hy
          obtain ⟨hf, hlf'⟩ := hown y.1 hy1.1
          refine puts_set (List.mem_map.2 ⟨_, hf, rfl⟩) ?_
          intro fs st h0
          rw [get?_newO hreg hf, hlf'.ty, hz] at h0
          simp only [labelStep, getF, h0, hlf'.ty, if_true]
        · cases hx
      · obtain ⟨f, hf, rfl⟩ := List.mem_map.1 hx
        rw [hN, List.mem_filter] at hf
        have hp := KindsO.plain (hreg.kinds f hf.1) hf.2
        obtain ⟨h4, _⟩ := hvok f hf.1 hp
        rcases h4 with ⟨h4, h5⟩ | ⟨cv, h4, h5⟩
        · refine puts_none ?_ ?_
          · simp only [fs0]
            rw [get?_newO hreg hf.1, h5]
          · intro fs st h0
            simp [newStep, h4]
        · refine puts_set (List.mem_map.2 ⟨_, hf.1, rfl⟩) ?_
          intro fs st h0
          simp [newStep, h4]
      · obtain ⟨f, hf, rfl⟩ := List.mem_map.1 hx
        rw [hD, List.mem_filter] at hf
        have hg := KindsO.generic (hreg.kinds f hf.1) hf.2
        obtain ⟨v, hv, hs⟩ := hfields f hf.1
        rw [htarget f hf.1] at hv
        cases hv
        exact decStep_putsO hg.ty (by rw [routed, if_pos (hrouteA f hf.1 hg), hgv]) (by rw [htagOf hO f hf.1, hg.isO.2.2.1]) (hs.generic hg)
          (get?_newO hreg hf.1) (List.mem_map.2 ⟨_, hf.1, rfl⟩)
      · obtain ⟨f, hf, rfl⟩ := List.mem_map.1 hx
        rw [hO, List.mem_filter] at hf
        have hb := KindsO.block (hreg.kinds f hf.1) hf.2
        obtain ⟨v, hv, hs⟩ := hfields f hf.1
        rw [htarget f hf.1] at hv
        cases hv
        have hle' : RefLe ref lf.ref := fun k t h => hrs.le hcan k t (hle k t h)
        have hbl := hs.block hb
        cases hg : GoMap.get? obj f.name with
        | none =>
          obtain ⟨c', nm, spec, s1, s2, s3⟩ := hso.slots f hf.1 hb hg
          rw [hg] at hbl
          exact oriStep_putsO ih hle' hord s2 (hother _ _ (by simp) (by simp)) (fun x hx => (hnf x hx).mono hl3) (hbl.auto s1 s3)
            (get?_newO hreg hf.1) (List.mem_map.2 ⟨_, hf.1, rfl⟩)
        | some spec =>
          rw [hg] at hbl
          exact oriStep_putsO ih hle' hord (hso.given f hf.1 _ hg) (hother _ _ (by simp) (by simp)) (fun x hx => (hnf x hx).mono hl3)
            (hbl.mono hle') (get?_newO hreg hf.1) (List.mem_map.2 ⟨_, hf.1, rfl⟩)
    have hnames : (items.map Prod.fst).Nodup := by
      have hdis := names_disjointO hreg
      rw [← hL, ← hN, ← hD, ← hO] at hdis
      refine hdis.sublist ?_
      simp only [items, List.map_append, List.map_map, List.append_assoc]
      refine List.Sublist.append ?_ (List.Sublist.refl _)
      split
      · rename_i hlen
        rw [List.map_map]
        have : (Prod.fst ∘ fun x : Fld × Bytes => (x.1.name, Val.str x.2, labelStep x)) = Fld.name ∘ Prod.fst := rfl
        rw [this, ← List.map_map, List.map_fst_zip (by omega)]
      · simp
    obtain ⟨fs', st', r1, r2, r3, r4, r5⟩ := runSteps_puts (G := During env ext root node h3 lf.ref) (K := K) (fs0 := fs0) (l := items)
      (fs := fs0) (st := ⟨h3, lf.ref⟩) hnames hputs hinit hfs0 (fun _ _ => rfl)
    have hfin : fs' = fs := by
      refine fields_ext (by rw [r3, hkeys]) (by rw [r3]; exact hreg.names) ?_
      intro k hk
      rw [r3] at hk
      obtain ⟨f, hf, rfl⟩ := List.mem_map.1 hk
      rcases hreg.kinds f hf with h | h | h | h
      · have hfl : f ∈ lf.labels := by rw [hL, List.mem_filter]; exact ⟨hf, (LabelFld.isO (obj := obj) h).1⟩
        by_cases hlen : labels.length = lf.labels.length
        · obtain ⟨s, hs⟩ : ∃ s, (f, s) ∈ lf.labels.zip labels := by
            have : f ∈ (lf.labels.zip labels).map Prod.fst := by rw [List.map_fst_zip (by omega)]; exact hfl
            obtain ⟨x, hx, rfl⟩ := List.mem_map.1 this
            exact ⟨x.2, hx⟩
          rw [r4 (f.name, Val.str s, labelStep (f, s)) (by
            simp only [items, List.mem_append, if_pos hlen]
            exact Or.inl (Or.inl (Or.inl (List.mem_map.2 ⟨_, hs, rfl⟩))))]
          exact (hlabels hlen _ hs).symm
        · have hl0 := hlab.2 (by rw [hL] at hlen; exact hlen) f (by rw [hL] at hfl; exact hfl)
          rw [hl0, r5, get?_newO hreg hf, h.ty, hz]
          intro hm
          have hdis := names_disjointO hreg
          rw [← hL, ← hN, ← hD, ← hO] at hdis
          have h6 := (List.nodup_append.1 hdis).2.2 f.name (List.mem_map.2 ⟨f, hfl, rfl⟩)
          refine h6 f.name ?_ rfl
          simp only [items, if_neg hlen, List.nil_append, List.map_append, List.map_map, List.append_assoc] at hm
          exact hm
      · rw [r4 (f.name, target f, newStep (routed [] lf vals .plain) (f, target f)) (by
          simp only [items, List.mem_append]
          exact Or.inl (Or.inl (Or.inr (List.mem_map.2 ⟨f, by rw [hN, List.mem_filter]; exact ⟨hf, h.isO.2.1⟩, rfl⟩))))]
        exact (htarget f hf).symm
      · rw [r4 (f.name, target f, oriStep env ext rec [] lf body vals path node f) (by
          simp only [items, List.mem_append]
          exact Or.inr (List.mem_map.2 ⟨f, by rw [hO, List.mem_filter]; exact ⟨hf, h.isO.2.2.1⟩, rfl⟩))]
        exact (htarget f hf).symm
      · rw [r4 (f.name, target f, decStep ext [] lf body vals node f) (by
          simp only [items, List.mem_append]
          exact Or.inl (Or.inr (List.mem_map.2 ⟨f, by rw [hD, List.mem_filter]; exact ⟨hf, h.isO.2.2.2⟩, rfl⟩)))]
        exact (htarget f hf).symm
    subst hfin
    refine ⟨st', ?_, r2.inv, ((hl1.trans hl2).trans hl3).trans r2.heap, hrs.trans r2.step⟩
    simp only [decodeStruct, hprep, steps, hnull]
    rw [hitems] at r1
    have hidle := runSteps_idle (l := lf.labels.map (labelAttrStep (routed [] lf vals .label))) (by
      intro s hs fs st
      obtain ⟨f, hf, rfl⟩ := List.mem_map.1 hs
      simp only [labelAttrStep, hother f.tag .label (by simp) (by simp)]) fs0 ⟨h3, lf.ref⟩
    simp only [List.append_assoc] at r1 ⊢
    exact runSteps_append.2 ⟨_, _, hidle, r1⟩

theorem decode_displays {env emb ext root ref} (hord : ∀ p l, (ext.ord p l).Perm l) (hz : ext.zero .str = .str []) :
    ∀ n m, n + emb ≤ m → RecDisplays env ext root ref (AndLabels env emb (Displays env emb ext ref n)) (decode env ext root m)
  | 0, _, _ => by intro path st node c fs obj labels body _ _ _ _ _ h; exact h.1.elim
  | n + 1, 0, h => by omega
  | n + 1, m + 1, hnm => decodeStruct_displays hord hz (decode_displays hord hz n m (by omega)) (by omega)

theorem not_plain_any {f : Fld} {obj} (h : PlainFld f) : ¬ AnyFld obj f := fun h' => by
  have := h.ty
  rcases h'.ty with e | e <;> simp [e, Ty.isPlain] at this
theorem not_block_any {f : Fld} {obj} (h : BlockFld f) : ¬ AnyFld obj f := fun h' => by
  have := h.ty
  rcases h'.ty with e | e <;> simp [e, Ty.isBlock] at this

end Verif.HclS
