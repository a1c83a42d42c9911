import Verif.Spec.HclStructFail
import Mathlib.Data.List.Forall2
/-! Lemmas for C115 and C116: success does not depend on what failing parts would have given. -/
namespace Verif.HclS
open Tree (Heap)
open Hcl (Cty)
open Det (Cls CVal)

theorem OkLe.refl {α : Type} (r : Except Fail α) : OkLe r r := fun _ h => h

theorem OkLe.map {α β : Type} {r r' : Except Fail α} (f : α → β) (h : OkLe r r') : OkLe (r.map f) (r'.map f) := by
  intro a ha
  cases r with
  | error e => cases ha
  | ok x => rw [h x rfl]; exact ha

/-- The recursive calls. -/
def RecLe (rec rec' : Rec) : Prop := ∀ path st node c fs obj labels body fs' st',
  rec path st node c fs obj labels body = (fs', .ok st') → rec' path st node c fs obj labels body = (fs', .ok st')

def PRecLe (rec rec' : PRec) : Prop := ∀ path level keys addr c fs,
  OkLe (rec path level keys addr c fs) (rec' path level keys addr c fs)

/-- The same block, but it may be that the second text can be parsed and the first cannot. -/
def BlkLe (x y : Blk) : Prop := y.labels = x.labels ∧ ∀ t, x.body = some t → y.body = some t

section Decode
variable {env : Env} {ext ext' : Ext} {rec rec' : Rec}

mutual
theorem evalE_le (hx : ext.Le ext') (vars : Vars) : ∀ e, evalE ext' vars e = evalE ext vars e
  | .str s => by simp only [evalE, hx.nfc]
  | .num q => rfl
  | .ident n => rfl
  | .neg e => by simp only [evalE, evalE_le hx vars e]; unfold negOf; simp only [hx.eval]
  | .call n => by simp only [evalE, callOf, hx.eval]
  | .tuple l => by simp only [evalE, evalL_le hx vars l]
  | .object m => by simp only [evalE, evalO_le hx vars m]
theorem evalL_le (hx : ext.Le ext') (vars : Vars) : ∀ l, evalL ext' vars l = evalL ext vars l
  | [] => rfl
  | e :: l => by simp only [evalL, evalE_le hx vars e, evalL_le hx vars l]
theorem evalO_le (hx : ext.Le ext') (vars : Vars) : ∀ m acc, evalO ext' vars m acc = evalO ext vars m acc
  | [], _ => rfl
  | (k, e) :: m, acc => by
    simp only [evalO, evalK_le hx vars k, evalE_le hx vars e]
    cases evalK ext vars k with
    | error e => rfl
    | ok key =>
      dsimp only
      cases evalE ext vars e with
      | error e => rfl
      | ok v => cases key <;> first | rfl | exact evalO_le hx vars m _
theorem evalK_le (hx : ext.Le ext') (vars : Vars) : ∀ e, evalK ext' vars e = evalK ext vars e
  | .ident n => rfl
  | .str s => by simp only [evalK, hx.nfc]
  | .num q => rfl
  | .neg e => by simp only [evalK, evalE_le hx vars e]; unfold negOf; simp only [hx.eval]
  | .call n => rfl
  | .tuple l => by simp only [evalK, evalL_le hx vars l]
  | .object m => by simp only [evalK, evalO_le hx vars m]
end

theorem evalAttrs_le (hx : ext.Le ext') (root node : Nat) (attrs : List (Bytes × Attr)) : ∀ ks h,
    evalAttrs ext' root node attrs ks h = evalAttrs ext root node attrs ks h
  | [], _ => rfl
  | k :: ks, h => by simp only [evalAttrs, evalE_le hx, evalAttrs_le hx root node attrs ks]

theorem newOf_le (hx : ext.Le ext') (t : Ty) : newOf env ext' t = newOf env ext t := by
  unfold newOf; simp only [hx.zero]

theorem elemKind_le (hx : ext.Le ext') (t : Ty) : elemKind env ext' t = elemKind env ext t := by
  unfold elemKind; simp only [newOf_le hx]

theorem addTagged_le (hx : ext.Le ext') (lf : LF) (f : Fld) : lf.addTagged env ext' f = lf.addTagged env ext f := by
  unfold LF.addTagged; simp only [newOf_le hx, elemKind_le hx]

theorem loopList_le (hx : ext.Le ext') {nulls : List Bytes} {deep deep' : List Fld → LF → Except Fail LF}
    (hd : ∀ fs lf, OkLe (deep fs lf) (deep' fs lf)) : ∀ fs lf,
    OkLe (loopList env ext nulls deep fs lf) (loopList env ext' nulls deep' fs lf)
  | [], lf => OkLe.refl _
  | f :: fs, lf => by
    have ih := loopList_le hx (nulls := nulls) hd fs
    unfold loopList
    split; · exact ih _
    split; · exact ih _
    split; · exact ih _
    split; · exact ih _
    split
    · split
      · exact OkLe.refl _
      · exact ih _
    split
    · cases f.ty.structOf with
      | none => exact ih _
      | some c =>
        dsimp only
        intro r h
        cases h1 : deep (env.struct c).fields lf with
        | error e => rw [h1] at h; cases h
        | ok lf' =>
          rw [h1] at h
          rw [hd _ _ _ h1]
          exact ih _ _ h
    · rw [addTagged_le hx]; exact ih _

theorem loopFields_le (hx : ext.Le ext') {nulls : List Bytes} : ∀ {n m : Nat}, n ≤ m → ∀ fs lf,
    OkLe (loopFields env ext nulls n fs lf) (loopFields env ext' nulls m fs lf)
  | 0, m, _, fs, lf => by
    cases m <;> exact loopList_le hx (fun _ _ _ h => by cases h) fs lf
  | n + 1, 0, h, _, _ => absurd h (by omega)
  | n + 1, m + 1, h, fs, lf => loopList_le hx (loopFields_le hx (Nat.le_of_succ_le_succ h)) fs lf

theorem prelude_le (hx : ext.Le ext') {n m : Nat} (hn : n ≤ m) (root st node cls obj path body) :
    OkLe (prelude env ext n root st node cls obj path body) (prelude env ext' m root st node cls obj path body) := by
  intro r h
  unfold prelude at h ⊢
  rw [evalAttrs_le hx, hx.ord]
  cases h1 : evalAttrs ext root node body.attrs (ext.ord (path ++ [b "attributes"]) (GoMap.keys body.attrs)) st.heap with
  | error e => rw [h1] at h; cases h
  | ok x =>
    rw [h1] at h
    dsimp only at h ⊢
    cases h2 : addBlockNodes node body.blocks x.2 with
    | error e => rw [h2] at h; cases h
    | ok h' =>
      rw [h2] at h
      dsimp only at h ⊢
      cases h3 : loopFields env ext (nullKeys x.1) n (env.struct cls).fields ⟨[], [], [], [], obj, st.ref⟩ with
      | error e => rw [h3] at h; cases h
      | ok lf => rw [h3] at h; rw [loopFields_le hx hn _ _ _ h3]; exact h

theorem decodeLeaves_le (hx : ext.Le ext') (val : Bytes → Option Cty) : ∀ fs, OkLe (decodeLeaves ext val fs) (decodeLeaves ext' val fs)
  | [] => OkLe.refl _
  | f :: fs => by
    have ih := decodeLeaves_le hx val fs
    unfold decodeLeaves
    rw [hx.zero]
    split
    · exact ih.map _
    · rename_i cv _
      split
      · exact ih.map _
      · intro r h
        cases h1 : ext.leaf f cv with
        | error e => rw [h1] at h; cases h
        | ok v => rw [h1] at h; rw [hx.leaf _ _ _ h1]; exact ih.map _ _ h

theorem gohclDecode_le (hx : ext.Le ext') (lf : LF) (body : Body) (val : Bytes → Option Cty) :
    OkLe (gohclDecode ext lf body val) (gohclDecode ext' lf body val) := by
  unfold gohclDecode
  repeat' split
  all_goals first | exact OkLe.refl _ | exact decodeLeaves_le hx val _

theorem prepare_le (hx : ext.Le ext') {n m : Nat} (hn : n ≤ m) (root st node cls obj path body) :
    OkLe (prepare env ext n root st node cls obj path body) (prepare env ext' m root st node cls obj path body) := by
  intro r h
  unfold prepare at h ⊢
  cases h1 : prelude env ext n root st node cls obj path body with
  | error e => rw [h1] at h; cases h
  | ok x =>
    rw [h1] at h; rw [prelude_le hx hn _ _ _ _ _ _ _ _ h1, hx.ord]
    dsimp only at h ⊢
    cases h2 : oriAttrs (nullKeys x.1) x.2.1 x.1 node (ext.ord (path ++ [b "refresh"]) (GoMap.keys body.attrs)) x.2.2 with
    | error e => rw [h2] at h; cases h
    | ok h' =>
      rw [h2] at h
      dsimp only at h ⊢
      cases h3 : gohclDecode ext x.2.1 body (routed (nullKeys x.1) x.2.1 x.1 .plain) with
      | error e => rw [h3] at h; cases h
      | ok raw => rw [h3] at h; rw [gohclDecode_le hx _ _ _ _ h3]; exact h

theorem decodeBlock_le (hr : RecLe rec rec') {x y : Blk} (hb : BlkLe x y) (path st node tag cls ml) :
    OkLe (decodeBlock rec path st node tag x cls ml) (decodeBlock rec' path st node tag y cls ml) := by
  intro r h
  unfold decodeBlock at h ⊢
  rw [hb.1]
  cases h1 : Tree.getNode st.heap node tag x.labels with
  | none => rw [h1] at h; cases h
  | some sub =>
    rw [h1] at h
    dsimp only at h ⊢
    cases h2 : GoMap.get? st.ref cls.name with
    | none => rw [h2] at h; cases h
    | some t =>
      rw [h2] at h
      cases t with
      | nil => cases h
      | bad => cases h
      | ptr c content =>
        dsimp only at h ⊢
        split at h
        · cases h
        · rw [if_neg (by assumption)]
          cases h3 : x.body with
          | none => rw [h3] at h; cases h
          | some body =>
            rw [h3] at h; rw [hb.2 _ h3]
            cases sub with
            | none => cases h
            | some sub =>
              dsimp only at h ⊢
              cases h4 : rec path st sub c content cls.fields x.labels body with
              | mk fs o =>
                rw [h4] at h
                cases o with
                | error e => cases h
                | ok st' => rw [hr _ _ _ _ _ _ _ _ _ _ h4]; exact h

theorem mapLoop_le (hr : RecLe rec rec') {path node tag kt ety m first} : ∀ {x y : List Blk}, List.Forall₂ BlkLe x y → ∀ st acc,
    OkLe (mapLoop env rec path node tag kt ety m first x st acc) (mapLoop env rec' path node tag kt ety m first y st acc)
  | _, _, .nil, _, _ => OkLe.refl _
  | x :: xs, y :: ys, .cons hb ht, st, acc => by
    intro r h
    unfold mapLoop at h ⊢
    rw [hb.1]
    have hp : place path tag ys = place path tag xs := by simp only [place, ht.length_eq]
    rw [hp]
    cases hl : x.labels with
    | nil => rw [hl] at h; cases h
    | cons key ls =>
      rw [hl] at h
      dsimp only at h ⊢
      cases h1 : orPanic ((GoMap.get? m key).or first) with
      | error e => rw [h1] at h; cases h
      | ok cls =>
        rw [h1] at h
        dsimp only at h ⊢
        cases h2 : decodeBlock rec (place path tag xs) st node tag x cls (some 1) with
        | error e => rw [h2] at h; cases h
        | ok z =>
          rw [h2] at h; rw [decodeBlock_le hr hb _ _ _ _ _ _ _ h2]
          dsimp only at h ⊢
          split at h
          · cases h3 : store env ety z.1.1 z.1.2 with
            | error e => rw [h3] at h; cases h
            | ok v =>
              rw [h3] at h
              dsimp only at h ⊢
              rw [if_pos (by assumption)]
              exact mapLoop_le hr ht _ _ _ h
          · cases h

theorem map2Loop_le (hr : RecLe rec rec') {path node tag kt ety m first ff} : ∀ {x y : List Blk}, List.Forall₂ BlkLe x y → ∀ st acc,
    OkLe (map2Loop env rec path node tag kt ety m first ff x st acc) (map2Loop env rec' path node tag kt ety m first ff y st acc)
  | _, _, .nil, _, _ => OkLe.refl _
  | x :: xs, y :: ys, .cons hb ht, st, acc => by
    intro r h
    unfold map2Loop at h ⊢
    rw [hb.1]
    have hp : place path tag ys = place path tag xs := by simp only [place, ht.length_eq]
    rw [hp]
    generalize orPanic _ = o at h ⊢
    cases o with
    | error e => cases h
    | ok cls =>
      dsimp only at h ⊢
      cases h2 : decodeBlock rec (place path tag xs) st node tag x cls (some 2) with
      | error e => rw [h2] at h; cases h
      | ok z =>
        rw [h2] at h; rw [decodeBlock_le hr hb _ _ _ _ _ _ _ h2]
        dsimp only at h ⊢
        split at h
        · cases h3 : store env ety z.1.1 z.1.2 with
          | error e => rw [h3] at h; cases h
          | ok v =>
            rw [h3] at h
            dsimp only at h ⊢
            rw [if_pos (by assumption)]
            exact map2Loop_le hr ht _ _ _ h
        · cases h

theorem listLoop_le (hr : RecLe rec rec') {path node tag ety first} : ∀ {x y : List Blk}, List.Forall₂ BlkLe x y → ∀ cs st,
    OkLe (listLoop env rec path node tag ety first cs x st) (listLoop env rec' path node tag ety first cs y st)
  | _, _, .nil, _, _ => by intro r h; unfold listLoop at h ⊢; exact h
  | x :: xs, y :: ys, .cons hb ht, cs, st => by
    intro r h
    unfold listLoop at h ⊢
    have hp : place path tag ys = place path tag xs := by simp only [place, ht.length_eq]
    rw [hp]
    cases h2 : decodeBlock rec (place path tag xs) st node tag x (cs.headD first) none with
    | error e => rw [h2] at h; cases h
    | ok z =>
      rw [h2] at h; rw [decodeBlock_le hr hb _ _ _ _ _ _ _ h2]
      dsimp only at h ⊢
      cases h3 : store env ety z.1.1 z.1.2 with
      | error e => rw [h3] at h; cases h
      | ok v =>
        rw [h3] at h
        dsimp only at h ⊢
        cases h4 : listLoop env rec path node tag ety first cs.tail xs z.2 with
        | error e => rw [h4] at h; cases h
        | ok w => rw [h4] at h; rw [listLoop_le hr ht _ _ _ h4]; exact h

theorem listMapLoop_le (hr : RecLe rec rec') {path node tag kt ety first} : ∀ {x y : List Blk}, List.Forall₂ BlkLe x y → ∀ st acc,
    OkLe (listMapLoop env rec path node tag kt ety first x st acc) (listMapLoop env rec' path node tag kt ety first y st acc)
  | _, _, .nil, _, _ => OkLe.refl _
  | x :: xs, y :: ys, .cons hb ht, st, acc => by
    intro r h
    unfold listMapLoop at h ⊢
    have hp : place path tag ys = place path tag xs := by simp only [place, ht.length_eq]
    rw [hp, hb.1]
    cases h2 : decodeBlock rec (place path tag xs) st node tag x first none with
    | error e => rw [h2] at h; cases h
    | ok z =>
      rw [h2] at h; rw [decodeBlock_le hr hb _ _ _ _ _ _ _ h2]
      dsimp only at h ⊢
      cases hl : x.labels with
      | nil => rw [hl] at h; cases h
      | cons key ls =>
        rw [hl] at h
        dsimp only at h ⊢
        split at h
        · cases h3 : store env ety z.1.1 z.1.2 with
          | error e => rw [h3] at h; cases h
          | ok v =>
            rw [h3] at h
            dsimp only at h ⊢
            rw [if_pos (by assumption)]
            exact listMapLoop_le hr ht _ _ _ h
        · cases h

theorem oriValue_le (hx : ext.Le ext') (hr : RecLe rec rec') {x y : List Blk} (hb : List.Forall₂ BlkLe x y) (path node tag ty spec st) :
    OkLe (oriValue env ext rec path node tag ty spec x st) (oriValue env ext' rec' path node tag ty spec y st) := by
  unfold oriValue
  rw [hx.ord]
  cases spec with
  | map2 m =>
    cases ty with
    | map kt ety => exact (map2Loop_le hr hb _ _).map _
    | _ => exact OkLe.refl _
  | map m =>
    cases ty with
    | map kt ety => exact (mapLoop_le hr hb _ _).map _
    | _ => exact OkLe.refl _
  | list l =>
    cases l with
    | nil => exact OkLe.refl _
    | cons first cs =>
      cases ty with
      | map kt ety => exact (listMapLoop_le hr hb _ _).map _
      | slice ety => exact (listLoop_le hr hb _ _).map _
      | _ => exact OkLe.refl _
  | single cls =>
    cases hb with
    | nil => exact OkLe.refl _
    | @cons a c xs ys hb ht =>
      dsimp only
      have hp : place path tag ys = place path tag xs := by simp only [place, ht.length_eq]
      rw [hp]
      intro r h
      cases h2 : decodeBlock rec (place path tag xs) st node tag a cls none with
      | error e => rw [h2] at h; cases h
      | ok z => rw [h2] at h; rw [decodeBlock_le hr hb _ _ _ _ _ _ _ h2]; exact h
  | none => exact OkLe.refl _

theorem blkLe_refl (l : List Blk) : List.Forall₂ BlkLe l l := by
  induction l with
  | nil => exact .nil
  | cons x l ih => exact .cons ⟨rfl, fun _ h => h⟩ ih

theorem blkLe_append {x x' y y' : List Blk} (h : List.Forall₂ BlkLe x x') (h' : List.Forall₂ BlkLe y y') :
    List.Forall₂ BlkLe (x ++ y) (x' ++ y') := by
  induction h with
  | nil => exact h'
  | cons h _ ih => exact .cons h ih

theorem attrBlocks_le (hx : ext.Le ext') (src : Bytes) : List.Forall₂ BlkLe (attrBlocks ext src) (attrBlocks ext' src) := by
  unfold attrBlocks
  induction objectPieces (src.drop 1) with
  | nil => exact .nil
  | cons s l ih => exact .cons ⟨rfl, hx.parse s⟩ ih

theorem oriBlocks_le (hx : ext.Le ext') (nulls lf body vals tag) :
    List.Forall₂ BlkLe (oriBlocks ext nulls lf body vals tag) (oriBlocks ext' nulls lf body vals tag) := by
  unfold oriBlocks
  refine blkLe_append ?_ (blkLe_refl _)
  split
  · exact attrBlocks_le hx _
  · exact .nil

/-- The steps. -/
def StepLe (s s' : Step) : Prop := ∀ fs st, OkLe (s fs st) (s' fs st)

theorem oriStep_le (hx : ext.Le ext') (hr : RecLe rec rec') (nulls lf body vals path node f) :
    StepLe (oriStep env ext rec nulls lf body vals path node f) (oriStep env ext' rec' nulls lf body vals path node f) := by
  intro fs st r h
  unfold oriStep at h ⊢
  have hb := oriBlocks_le hx nulls lf body vals f.tag
  revert hb h
  generalize oriBlocks ext nulls lf body vals f.tag = x
  generalize oriBlocks ext' nulls lf body vals f.tag = y
  intro h hb
  cases hb with
  | nil => exact h
  | @cons a c xs ys hb ht =>
    dsimp only at h ⊢
    cases h1 : oriValue env ext rec path node f.tag f.ty ((GoMap.get? lf.obj f.name).getD .none) (a :: xs) st with
    | error e => rw [h1] at h; cases h
    | ok z => rw [h1] at h; rw [oriValue_le hx hr (.cons hb ht) _ _ _ _ _ _ _ h1]; exact h

theorem decStep_le (hx : ext.Le ext') (nulls lf body vals node f) :
    StepLe (decStep ext nulls lf body vals node f) (decStep ext' nulls lf body vals node f) := by
  intro fs st r h
  unfold decStep at h ⊢
  dsimp only at h ⊢
  generalize (match f.ty with | .slice _ => true | _ => false) = s at h ⊢
  have key : ∀ o o' : Option (Except Fail (Val × Heap Cty)), (o = none → o' = none) → (∀ z, o = some (.ok z) → o' = some (.ok z)) →
      (match o with
        | none => Except.ok (fs, st)
        | some (.error e) => .error e
        | some (.ok (v, h)) =>
          if f.ty = Ty.slice .any ∨ f.ty = Ty.map .str .any then
            (setF f.name v fs).map fun fs => (fs, { st with heap := h })
          else .error .panic) = .ok r →
      (match o' with
        | none => Except.ok (fs, st)
        | some (.error e) => .error e
        | some (.ok (v, h)) =>
          if f.ty = Ty.slice .any ∨ f.ty = Ty.map .str .any then
            (setF f.name v fs).map fun fs => (fs, { st with heap := h })
          else .error .panic) = .ok r := by
    intro o o' h1 h2 h3
    cases o with
    | none => rw [h1 rfl]; exact h3
    | some z =>
      cases z with
      | error e => cases h3
      | ok z => rw [h2 z rfl]; exact h3
  refine key _ _ ?_ ?_ h
  · intro hn
    split at hn
    · cases hn
    · split at hn
      · cases hn
      · rfl
  · intro z hz
    split at hz
    · simp only [Option.some.injEq] at hz ⊢; exact hx.dynAttr _ _ _ _ _ hz
    · split at hz
      · simp only [Option.some.injEq] at hz ⊢; exact hx.dynBlock _ _ _ _ _ hz
      · cases hz

theorem runSteps_le : ∀ {l l' : List Step}, List.Forall₂ StepLe l l' → ∀ fs st fs' st',
    runSteps l fs st = (fs', .ok st') → runSteps l' fs st = (fs', .ok st')
  | _, _, .nil, _, _, _, _, h => h
  | s :: l, s' :: l', .cons hs ht, fs, st, fs', st', h => by
    unfold runSteps at h ⊢
    cases h1 : s fs st with
    | error e => rw [h1] at h; simp at h
    | ok z => rw [h1] at h; rw [hs _ _ _ h1]; exact runSteps_le ht _ _ _ _ h

theorem stepLe_refl (s : Step) : StepLe s s := fun _ _ => OkLe.refl _

theorem steps_append {x x' y y' : List Step} (h : List.Forall₂ StepLe x x') (h' : List.Forall₂ StepLe y y') :
    List.Forall₂ StepLe (x ++ y) (x' ++ y') := by
  induction h with
  | nil => exact h'
  | cons h _ ih => exact .cons h ih

theorem steps_refl (l : List Step) : List.Forall₂ StepLe l l := by
  induction l with
  | nil => exact .nil
  | cons s l ih => exact .cons (stepLe_refl s) ih

theorem steps_map {α : Type} {f g : α → Step} (h : ∀ a, StepLe (f a) (g a)) (l : List α) : List.Forall₂ StepLe (l.map f) (l.map g) := by
  induction l with
  | nil => exact .nil
  | cons a l ih => exact .cons (h a) ih

theorem decodeStruct_le (hx : ext.Le ext') (hr : RecLe rec rec') {n m : Nat} (hn : n ≤ m) (root : Nat) :
    RecLe (decodeStruct env ext root n rec) (decodeStruct env ext' root m rec') := by
  intro path st node c fs obj labels body fs' st' h
  unfold decodeStruct at h ⊢
  cases h1 : prepare env ext n root st node c obj path body with
  | error e => rw [h1] at h; simp at h
  | ok p =>
    rw [h1] at h; rw [prepare_le hx hn _ _ _ _ _ _ _ _ h1]
    refine runSteps_le ?_ _ _ _ _ h
    unfold steps
    exact steps_append (steps_append (steps_refl _) (steps_map (fun f => decStep_le hx _ _ _ _ _ f) _))
      (steps_map (fun f => oriStep_le hx hr _ _ _ _ _ _ f) _)

end Decode

theorem plusRec_le {ms ms' : Methods} {rec rec' : Rec} (hm : ms.Le ms') (hr : RecLe rec rec') : RecLe (plusRec ms rec) (plusRec ms' rec') := by
  intro path st node c fs obj labels body fs' st' h
  have hu := hm.unmarshal c
  unfold plusRec at h ⊢
  cases h1 : ms.unmarshal c with
  | none =>
    cases h2 : ms'.unmarshal c with
    | none => rw [h1] at h; exact hr _ _ _ _ _ _ _ _ _ _ h
    | some u' => rw [h1, h2] at hu; exact hu.elim
  | some u =>
    cases h2 : ms'.unmarshal c with
    | none => rw [h1, h2] at hu; exact hu.elim
    | some u' =>
      rw [h1, h2] at hu
      rw [h1] at h
      dsimp only at h hu ⊢
      cases h3 : u fs labels body with
      | error e => rw [h3] at h; simp at h
      | ok z => rw [h3] at h; rw [hu _ _ _ _ h3]; exact h

theorem decodeOwn_le {ms ms' : Methods} {env : Env} {ext ext' : Ext} (hm : ms.Le ms') (hx : ext.Le ext') (root : Nat) : ∀ {n m : Nat}, n ≤ m →
    RecLe (decodeOwn ms env ext root n) (decodeOwn ms' env ext' root m)
  | 0, m, _ => by
    intro path st node c fs obj labels body fs' st' h
    cases h
  | n + 1, 0, h => absurd h (by omega)
  | n + 1, m + 1, h => by
    intro path st node c fs obj labels body fs' st' h'
    exact decodeStruct_le hx (plusRec_le hm (decodeOwn_le hm hx root (Nat.le_of_succ_le_succ h))) (Nat.le_of_succ_le_succ h) root
      _ _ _ _ _ _ _ _ _ _ h'

section Print
variable {env : Env} {pe pe' : PExt} {rec rec' : PRec}

theorem fieldList_le (hp : pe.Le pe') {fs : Fields} {deep : List Fld → Except Fail (List PFld)} : ∀ l,
    fieldList env pe' fs deep l = fieldList env pe fs deep l
  | [] => rfl
  | f :: l => by
    unfold fieldList
    simp only [fieldList_le hp l, hp.anon]

theorem getFields_le (hp : pe.Le pe') (fs : Fields) : ∀ n l, getFields env pe' fs n l = getFields env pe fs n l
  | 0, l => fieldList_le hp l
  | n + 1, l => by
    have : getFields env pe' fs n = getFields env pe fs n := funext (getFields_le hp fs n)
    simp only [getFields, this, fieldList_le hp]

theorem levelText_le (hp : pe.Le pe') (hr : PRecLe rec rec') (path level ty v) :
    OkLe (levelText pe rec path level ty v) (levelText pe' rec' path level ty v) := by
  unfold levelText
  split
  · exact OkLe.refl _
  · cases v with
    | ref c fs => exact hr _ _ _ _ _ _
    | inst c fs => exact hr _ _ _ _ _ _
    | _ => cases ty <;> first | exact hp.enc _ _ | (dsimp only [pointerText]; rw [hp.raw]; exact OkLe.refl _) | exact OkLe.refl _

theorem sliceOuts_le (hp : pe.Le pe') (hr : PRecLe rec rec') (path level f ety) : ∀ l,
    OkLe (sliceOuts pe rec path level f ety l) (sliceOuts pe' rec' path level f ety l)
  | [] => OkLe.refl _
  | v :: l => by
    intro r h
    unfold sliceOuts at h ⊢
    cases h1 : levelText pe rec (path ++ [f.name, List.replicate l.length 0]) (level + 1) ety v with
    | error e => rw [h1] at h; cases h
    | ok t => rw [h1] at h; rw [levelText_le hp hr _ _ _ _ _ h1]; exact (sliceOuts_le hp hr path level f ety l).map _ _ h

theorem elemText_le (hp : pe.Le pe') (hr : PRecLe rec rec') (path level keys ety v) :
    OkLe (elemText env pe rec path level keys ety v) (elemText env pe' rec' path level keys ety v) := by
  unfold elemText pointerText
  rw [hp.raw]
  split
  · exact hr _ _ _ _ _ _
  · exact hr _ _ _ _ _ _
  all_goals exact OkLe.refl _

theorem mapOuts_le {κ : Type} [DecidableEq κ] (hp : pe.Le pe') (hr : PRecLe rec rec') (path level f ety) (labelsOf : κ → List Bytes)
    (m : List (κ × Val)) : ∀ ks,
    OkLe (mapOuts env pe rec path level f ety labelsOf m ks) (mapOuts env pe' rec' path level f ety labelsOf m ks)
  | [] => OkLe.refl _
  | k :: ks => by
    intro r h
    unfold mapOuts at h ⊢
    cases hg : GoMap.get? m k with
    | none => rw [hg] at h; exact mapOuts_le hp hr path level f ety labelsOf m ks _ h
    | some v =>
      rw [hg] at h
      dsimp only at h ⊢
      cases h1 : elemText env pe rec (path ++ f.name :: labelsOf k) (level + 1) (labelsOf k) ety v with
      | error e => rw [h1] at h; cases h
      | ok t => rw [h1] at h; rw [elemText_le hp hr _ _ _ _ _ _ h1]; exact (mapOuts_le hp hr path level f ety labelsOf m ks).map _ _ h

theorem outlier_le (hp : pe.Le pe') (hr : PRecLe rec rec') (path level addr f v) :
    OkLe (outlier env pe rec path level addr f v) (outlier env pe' rec' path level addr f v) := by
  unfold outlier
  rw [hp.ord, hp.ord2]
  split
  · exact (levelText_le hp hr _ _ _ _).map _
  · exact (levelText_le hp hr _ _ _ _).map _
  · exact (levelText_le hp hr _ _ _ _).map _
  · split
    · split
      · exact (hr _ _ _ _ _ _).map _
      · exact (levelText_le hp hr _ _ _ _).map _
    · exact OkLe.refl _
  · split
    · exact OkLe.refl _
    · split
      · exact sliceOuts_le hp hr _ _ _ _ _
      · exact (hp.enc _ _).map _
    · exact OkLe.refl _
  · split
    · exact OkLe.refl _
    · exact OkLe.refl _
    · split
      · exact mapOuts_le hp hr _ _ _ _ _ _ _
      · exact (hp.enc _ _).map _
    · split
      · exact mapOuts_le hp hr _ _ _ _ _ _ _
      · exact (hp.enc _ _).map _
    · exact OkLe.refl _
  · exact OkLe.refl _

theorem collect_le (hp : pe.Le pe') (hr : PRecLe rec rec') (path level addr keyname) : ∀ ps,
    OkLe (collect env pe rec path level addr keyname ps) (collect env pe' rec' path level addr keyname ps)
  | [] => OkLe.refl _
  | p :: ps => by
    have ih := collect_le hp hr path level addr keyname ps
    unfold collect
    split
    · intro r h
      cases h1 : outlier env pe rec path level addr p.fld p.val with
      | error e => rw [h1] at h; cases h
      | ok o => rw [h1] at h; rw [outlier_le hp hr _ _ _ _ _ _ h1]; exact ih.map _ _ h
    · split
      · split
        · exact ih.map _
        · exact OkLe.refl _
      · split
        · exact OkLe.refl _
        · exact ih

theorem attrsOf_le (hp : pe.Le pe') : ∀ ps, attrsOf pe' ps = attrsOf pe ps
  | [] => rfl
  | p :: ps => by simp only [attrsOf, hp.expr, attrsOf_le hp ps]

theorem marshalStruct_le (hp : pe.Le pe') (hr : PRecLe rec rec') : PRecLe (marshalStruct env pe rec) (marshalStruct env pe' rec') := by
  intro path level keyname addr c fs r h
  unfold marshalStruct at h ⊢
  rw [hp.embedded, getFields_le hp]
  cases h1 : getFields env pe fs pe.embedded (env.struct c).fields with
  | error e => rw [h1] at h; cases h
  | ok ps =>
    rw [h1] at h
    dsimp only at h ⊢
    cases h2 : collect env pe rec path level addr keyname ps with
    | error e => rw [h2] at h; cases h
    | ok z =>
      rw [h2] at h; rw [collect_le hp hr _ _ _ _ _ _ h2]
      dsimp only at h ⊢
      have hs : ∀ attrs outs, structText pe' level attrs outs = structText pe level attrs outs := by
        intro attrs outs; unfold structText attrText; rw [hp.pad]
      rw [attrsOf_le hp, hs]
      exact h

theorem plusPRec_le {ms ms' : Methods} (hm : ms.Le ms') (hr : PRecLe rec rec') : PRecLe (plusPRec ms rec) (plusPRec ms' rec') := by
  intro path level keyname addr c fs
  have hu := hm.marshal addr c
  unfold plusPRec
  cases h1 : ms.marshal addr c with
  | none =>
    cases h2 : ms'.marshal addr c with
    | none => exact hr _ _ _ _ _ _
    | some u' => rw [h1, h2] at hu; exact hu.elim
  | some u =>
    cases h2 : ms'.marshal addr c with
    | none => rw [h1, h2] at hu; exact hu.elim
    | some u' => rw [h1, h2] at hu; exact (hu fs).map _

theorem marshalOwnN_le {ms ms' : Methods} (hm : ms.Le ms') (hp : pe.Le pe') : ∀ {n m : Nat}, n ≤ m →
    PRecLe (marshalOwnN ms env pe n) (marshalOwnN ms' env pe' m)
  | 0, m, _ => fun _ _ _ _ _ _ _ h => by cases h
  | n + 1, 0, h => absurd h (by omega)
  | n + 1, m + 1, h => fun path level keyname addr c fs =>
    plusPRec_le hm (marshalStruct_le hp (marshalOwnN_le hm hp (Nat.le_of_succ_le_succ h))) path level keyname addr c fs

end Print
end Verif.HclS
