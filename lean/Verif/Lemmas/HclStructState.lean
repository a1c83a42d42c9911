import Verif.Lemmas.HclStructSim
/-!
# What decoding does to `ref` and to the tree of variables
-/
set_option linter.unusedSimpArgs false

namespace Verif.HclS
open Tree (Heap Le Walk)
open Hcl (Cty Expr)
open Det (Cls CVal KeyTy insertK ltB)

/-- A relation between the states before and after. -/
structure StRel (env : Env) (ext : Ext) (root : Nat) (R : St → St → Prop) : Prop where
  refl : ∀ st, R st st
  trans : ∀ a c d, R a c → R c d → R a d
  prep : ∀ n st node cls obj path body p, prepare env ext n root st node cls obj path body = .ok p → R st ⟨p.heap, p.lf.ref⟩
  attr : ∀ s (st : St) n src v h, ext.dynAttr s st.heap n src = .ok (v, h) → R st ⟨h, st.ref⟩
  block : ∀ s (st : St) n body v h, ext.dynBlock s st.heap n body = .ok (v, h) → R st ⟨h, st.ref⟩

def RecRel (R : St → St → Prop) (rec : Rec) : Prop :=
  ∀ path st node c fs obj labels body out st1, rec path st node c fs obj labels body = (out, .ok st1) → R st st1

section
variable {env : Env} {ext : Ext} {root : Nat} {R : St → St → Prop} (hR : StRel env ext root R) {rec : Rec} (hrec : RecRel R rec)
include hR hrec

omit hR in
theorem decodeBlock_rel {p st node tag blk cls ml c fs st1}
    (h : decodeBlock rec p st node tag blk cls ml = .ok ((c, fs), st1)) : R st st1 := by
  obtain ⟨body, content, sub, _, _, _, _, h5⟩ := decodeBlock_ok h
  exact hrec _ _ _ _ _ _ _ _ _ _ h5

theorem listLoop_rel {path node tag ety first} : ∀ {blks cs st vs st1},
    listLoop env rec path node tag ety first cs blks st = .ok (vs, st1) → R st st1
  | [], cs, st, vs, st1, h => by
    simp only [listLoop] at h
    cases h
    exact hR.refl _
  | blk :: blks, cs, st, vs, st1, h => by
    simp only [listLoop] at h
    split at h
    · cases h
    rename_i c fs s1 hd
    split at h
    · cases h
    split at h
    · cases h
    rename_i vs' s2 hl
    cases h
    exact hR.trans _ _ _ (decodeBlock_rel hrec hd) (listLoop_rel hl)

theorem listMapLoop_rel {path node tag kt ety first} : ∀ {blks st acc r st1},
    listMapLoop env rec path node tag kt ety first blks st acc = .ok (r, st1) → R st st1
  | [], st, acc, r, st1, h => by cases h; exact hR.refl _
  | blk :: blks, st, acc, r, st1, h => by
    simp only [listMapLoop] at h
    split at h
    · cases h
    rename_i c fs s1 hd
    split at h
    · cases h
    split at h
    · split at h
      · cases h
      exact hR.trans _ _ _ (decodeBlock_rel hrec hd) (listMapLoop_rel h)
    · cases h

theorem mapLoop_rel {path node tag kt ety m first} : ∀ {blks st acc r st1},
    mapLoop env rec path node tag kt ety m first blks st acc = .ok (r, st1) → R st st1
  | [], st, acc, r, st1, h => by cases h; exact hR.refl _
  | blk :: blks, st, acc, r, st1, h => by
    simp only [mapLoop] at h
    split at h
    · cases h
    split at h
    · cases h
    split at h
    · cases h
    rename_i c fs s1 hd
    split at h
    · split at h
      · cases h
      exact hR.trans _ _ _ (decodeBlock_rel hrec hd) (mapLoop_rel h)
    · cases h

theorem map2Loop_rel {path node tag kt ety m first ff} : ∀ {blks st acc r st1},
    map2Loop env rec path node tag kt ety m first ff blks st acc = .ok (r, st1) → R st st1
  | [], st, acc, r, st1, h => by cases h; exact hR.refl _
  | blk :: blks, st, acc, r, st1, h => by
    simp only [map2Loop] at h
    split at h
    · cases h
    split at h
    · cases h
    rename_i c fs s1 hd
    split at h
    · split at h
      · cases h
      exact hR.trans _ _ _ (decodeBlock_rel hrec hd) (map2Loop_rel h)
    · cases h

theorem oriValue_rel {path node tag ty spec blks st v st1}
    (h : oriValue env ext rec path node tag ty spec blks st = .ok (v, st1)) : R st st1 := by
  simp only [oriValue] at h
  split at h
  · split at h
    · obtain ⟨w, hw, he⟩ := map_ok' h
      cases he; exact map2Loop_rel hR hrec hw
    · cases h
  · split at h
    · obtain ⟨w, hw, he⟩ := map_ok' h
      cases he; exact mapLoop_rel hR hrec hw
    · cases h
  · cases h
  · split at h
    · obtain ⟨w, hw, he⟩ := map_ok' h
      cases he; exact listMapLoop_rel hR hrec hw
    · obtain ⟨w, hw, he⟩ := map_ok' h
      cases he; exact listLoop_rel hR hrec hw
    · cases h
  · split at h
    · cases h
    split at h
    · cases h
    rename_i hd
    obtain ⟨w, hw, he⟩ := map_ok' h
    cases he; exact decodeBlock_rel hrec hd
  · cases h; exact hR.refl _

theorem oriStep_rel {nulls lf body vals path node f fs st fs1 st1}
    (h : oriStep env ext rec nulls lf body vals path node f fs st = .ok (fs1, st1)) : R st st1 := by
  simp only [oriStep] at h
  split at h
  · cases h; exact hR.refl _
  split at h
  · cases h
  · rename_i ho; cases h; exact oriValue_rel hR hrec ho
  · rename_i ho
    obtain ⟨w, hw, he⟩ := map_ok' h
    cases he; exact oriValue_rel hR hrec ho

omit hrec in
theorem stateless_rel {s : Step} (hs : Stateless s) {fs st fs1 st1} (h : s fs st = .ok (fs1, st1)) : R st st1 := by
  obtain ⟨g, hg⟩ := hs
  rw [hg] at h
  obtain ⟨w, hw, he⟩ := map_ok' h
  cases he; exact hR.refl _

omit hrec in
theorem decStep_rel {nulls lf body vals node f fs st fs1 st1}
    (h : decStep ext nulls lf body vals node f fs st = .ok (fs1, st1)) : R st st1 := by
  have fin : ∀ {r : Except Fail (Val × Heap Cty)}, (∀ v g, r = .ok (v, g) → R st ⟨g, st.ref⟩) →
      (match some r with
        | none => .ok (fs, st)
        | some (.error e) => .error e
        | some (.ok (v, h)) =>
          if f.ty = .slice .any ∨ f.ty = .map .str .any then (setF f.name v fs).map fun fs => (fs, { st with heap := h })
          else .error .panic : Except Fail (Fields × St)) = .ok (fs1, st1) → R st st1 := by
    intro r hr he
    cases r with
    | error e => cases he
    | ok w =>
      simp only at he
      by_cases ht : f.ty = .slice .any ∨ f.ty = .map .str .any
      · rw [if_pos ht] at he
        obtain ⟨a, ha, hb⟩ := map_ok' he
        cases hb
        exact hr w.1 w.2 rfl
      · rw [if_neg ht] at he; cases he
  have viaBlocks : (match (match body.blocks.filter fun x => x.1 = f.tag && !hasTag lf.oris x.1 with
          | x :: _ => some (ext.dynBlock (match f.ty with | .slice _ => true | _ => false) st.heap node x.2.2)
          | [] => none) with
        | none => .ok (fs, st)
        | some (.error e) => .error e
        | some (.ok (v, h)) =>
          if f.ty = .slice .any ∨ f.ty = .map .str .any then (setF f.name v fs).map fun fs => (fs, { st with heap := h })
          else .error .panic : Except Fail (Fields × St)) = .ok (fs1, st1) → R st st1 := by
    intro he
    cases hx : body.blocks.filter fun x => x.1 = f.tag && !hasTag lf.oris x.1 with
    | nil => rw [hx] at he; cases he; exact hR.refl _
    | cons x r =>
      rw [hx] at he
      exact fin (fun v g hd => hR.block _ _ _ _ _ _ hd) he
  simp only [decStep] at h
  cases hr : routed nulls lf vals .dec f.tag with
  | none => rw [hr] at h; exact viaBlocks h
  | some cv =>
    rw [hr] at h
    cases ha : GoMap.get? body.attrs f.tag with
    | none => rw [ha] at h; exact viaBlocks h
    | some a =>
      rw [ha] at h
      exact fin (fun v g hd => hR.attr _ _ _ _ _ _ hd) h

omit hrec in
theorem runSteps_rel {l : List Step} (hl : ∀ s ∈ l, ∀ fs st fs1 st1, s fs st = .ok (fs1, st1) → R st st1) :
    ∀ {fs st fs1 st1}, runSteps l fs st = (fs1, .ok st1) → R st st1 := by
  induction l with
  | nil => intro fs st fs1 st1 h; cases h; exact hR.refl _
  | cons s l ih =>
    intro fs st fs1 st1 h
    simp only [runSteps] at h
    split at h
    · rename_i h2
      exact hR.trans _ _ _ (hl s (by simp) _ _ _ _ h2) (ih (fun s hs => hl s (by simp [hs])) h)
    · cases h

theorem steps_rel {p node labels path body} :
    ∀ s ∈ steps env ext rec p node labels path body, ∀ fs st fs1 st1, s fs st = .ok (fs1, st1) → R st st1 := by
  intro s hs fs st fs1 st1 h
  simp only [steps, List.mem_append] at hs
  rcases hs with (((hs | hs) | hs) | hs) | hs
  · obtain ⟨g, _, rfl⟩ := List.mem_map.1 hs
    exact stateless_rel hR (labelAttrStep_stateless _ _) h
  · simp only [labelSteps] at hs
    split at hs
    · obtain ⟨g, _, rfl⟩ := List.mem_map.1 hs
      exact stateless_rel hR (labelStep_stateless _) h
    · cases hs
  · obtain ⟨g, _, rfl⟩ := List.mem_map.1 hs
    exact stateless_rel hR (newStep_stateless _ _) h
  · obtain ⟨g, _, rfl⟩ := List.mem_map.1 hs
    exact decStep_rel hR h
  · obtain ⟨g, _, rfl⟩ := List.mem_map.1 hs
    exact oriStep_rel hR hrec h

end

theorem decode_rel {env ext root R} (hR : StRel env ext root R) : ∀ n, RecRel R (decode env ext root n)
  | 0 => by intro path st node c fs obj labels body out st1 h; cases h
  | n + 1 => by
    intro path st node c fs obj labels body out st1 h
    obtain ⟨p, hp, hs⟩ := decode_ok h
    exact hR.trans _ _ _ (hR.prep _ _ _ _ _ _ _ _ hp) (runSteps_rel hR (steps_rel hR (decode_rel hR n)) hs)

/-! ## `ref` -/

/-- Only names of struct and pointer types are set, to new values of these types. -/
def RefStep (env : Env) (ext : Ext) (r r' : GoMap Bytes Tmpl) : Prop :=
  ∀ k, GoMap.get? r' k = GoMap.get? r k ∨ ∃ t, TypeEntry env ext k t ∧ GoMap.get? r' k = some t

theorem RefStep.refl (env ext r) : RefStep env ext r r := fun _ => Or.inl rfl

theorem RefStep.trans {env ext a c d} (h : RefStep env ext a c) (h' : RefStep env ext c d) : RefStep env ext a d := by
  intro k
  rcases h' k with h1 | h1
  · rcases h k with h2 | ⟨t, ht, h2⟩
    · exact Or.inl (h1.trans h2)
    · exact Or.inr ⟨t, ht, h1.trans h2⟩
  · exact Or.inr h1

theorem RefStep.set {env ext k t} (h : TypeEntry env ext k t) (r : GoMap Bytes Tmpl) : RefStep env ext r (GoMap.set r k t) := by
  intro x
  rw [GoMap.get?_set]
  split
  · rename_i he; subst he; exact Or.inr ⟨t, h, rfl⟩
  · exact Or.inl rfl

theorem addElem_step {env ext} (lf : LF) (f ty v) : RefStep env ext lf.ref (lf.addElem f (elemKind env ext ty) v).ref := by
  cases ty with
  | struct c => exact RefStep.set (.struct c) _
  | ptr t => exact RefStep.set (.ptr t) _
  | _ => exact RefStep.refl _ _ _

theorem addTagged_step {env ext} (lf : LF) (f) : RefStep env ext lf.ref (lf.addTagged env ext f).ref := by
  simp only [LF.addTagged]
  split
  · exact RefStep.set (.struct _) _
  · exact addElem_step _ _ _ _
  · exact addElem_step _ _ _ _
  · exact addElem_step _ _ _ _
  · exact RefStep.refl _ _ _

theorem loopList_step {env ext nulls deep} (hd : ∀ fs lf lf', deep fs lf = .ok lf' → RefStep env ext lf.ref lf'.ref) :
    ∀ fs lf lf', loopList env ext nulls deep fs lf = .ok lf' → RefStep env ext lf.ref lf'.ref
  | [], lf, lf', h => by cases h; exact RefStep.refl _ _ _
  | f :: fs, lf, lf', h => by
    have ih := loopList_step (nulls := nulls) hd fs
    simp only [loopList] at h
    split at h
    · exact ih _ _ h
    split at h
    · exact ih _ _ h
    split at h
    · exact ih { lf with labels := lf.labels ++ [f] } _ h
    split at h
    · exact ih _ _ h
    split at h
    · split at h
      · cases h
      · exact ih { lf with oris := lf.oris ++ [f] } _ h
    split at h
    · split at h
      · split at h
        · cases h
        rename_i lf1 hd1
        exact (hd _ _ _ hd1).trans (ih _ _ h)
      · exact ih _ _ h
    · exact (addTagged_step lf f).trans (ih _ _ h)

theorem loopFields_step {env ext nulls} : ∀ n fs lf lf', loopFields env ext nulls n fs lf = .ok lf' → RefStep env ext lf.ref lf'.ref
  | 0 => loopList_step (fun _ _ _ h => by cases h)
  | n + 1 => loopList_step (loopFields_step n)

theorem refRel (env ext root) : StRel env ext root fun st st' => RefStep env ext st.ref st'.ref where
  refl _ := RefStep.refl _ _ _
  trans _ _ _ h h' := h.trans h'
  prep n st node cls obj path body p h := by
    obtain ⟨h1, h2, hpre, _, _, _⟩ := prepare_ok h
    obtain ⟨h3, _, _, hl⟩ := prelude_ok hpre
    exact loopFields_step _ _ _ _ hl
  attr _ _ _ _ _ _ _ := RefStep.refl _ _ _
  block _ _ _ _ _ _ _ := RefStep.refl _ _ _

theorem RefStep.le {env ext r r'} (h : RefStep env ext r r') (hc : Canonical env ext r) : RefLe r r' := by
  intro k t hk
  rcases h k with h1 | ⟨t', ht, h1⟩
  · rw [h1, hk]
  · rw [h1, (hc k t' ht).1 t hk]

theorem RefStep.canonical {env ext r r'} (h : RefStep env ext r r') (hc : Canonical env ext r) : Canonical env ext r' := by
  intro k t ht
  refine ⟨?_, (hc k t ht).2⟩
  intro t' ht'
  rcases h k with h1 | ⟨t1, h1, h2⟩
  · exact (hc k t ht).1 t' (by rw [← h1, ht'])
  · rw [h2] at ht'
    cases ht'
    exact (hc k t ht).2 _ h1

/-! ## The tree -/

/-- The tree stays valid and only grows. -/
def HeapStep (h h' : Heap Cty) : Prop := Tree.Inv h → Tree.Inv h' ∧ Le h h'

theorem HeapStep.refl (h) : HeapStep h h := fun hi => ⟨hi, .refl h⟩

theorem HeapStep.trans {a c d} (h : HeapStep a c) (h' : HeapStep c d) : HeapStep a d := fun hi => by
  obtain ⟨h1, h2⟩ := h hi
  obtain ⟨h3, h4⟩ := h' h1
  exact ⟨h3, h2.trans h4⟩

theorem addItem_step {h : Heap Cty} {i k v h'} (he : Tree.addItem h i k v = some h') : HeapStep h h' := by
  intro hi
  have hlt : i < h.length := by
    simp only [Tree.addItem] at he
    split at he
    · cases he
    · rename_i hx; exact Tree.lt_of_get hx
  obtain ⟨h1, h2, h3, h4⟩ := Tree.le_addItem hi hlt k v
  rw [h2] at he; cases he
  exact ⟨h3, h4⟩

theorem addNode_step {h : Heap Cty} {i k h' c} (he : Tree.addNode h i k = some (h', c)) : HeapStep h h' := by
  intro hi
  have hlt : i < h.length := by
    simp only [Tree.addNode] at he
    split at he
    · cases he
    · rename_i hx; exact Tree.lt_of_get hx
  obtain ⟨h1, c', h2, h3, h4, _⟩ := Tree.le_addNode hi hlt k
  rw [h2] at he; cases he
  exact ⟨h3, h4⟩

theorem addNodesLoop_step : ∀ {ns : List Bytes} {h : Heap Cty} {i h' c}, Tree.addNodesLoop h i ns = some (h', c) → HeapStep h h'
  | [], h, i, h', c, he => by cases he; exact HeapStep.refl _
  | n :: ns, h, i, h', c, he => by
    simp only [Tree.addNodesLoop] at he
    split at he
    · cases he
    rename_i h1
    exact (addNode_step h1).trans (addNodesLoop_step he)

theorem addNodes_step {h : Heap Cty} {i t ns h' c} (he : Tree.addNodes h i t ns = some (h', c)) : HeapStep h h' := by
  simp only [Tree.addNodes] at he
  split at he
  · cases he
  rename_i h1
  exact (addNode_step h1).trans (addNodesLoop_step he)

theorem evalAttrs_step {ext root node attrs} : ∀ {ks h vals h'}, evalAttrs ext root node attrs ks h = .ok (vals, h') → HeapStep h h'
  | [], h, vals, h', he => by cases he; exact HeapStep.refl _
  | k :: ks, h, vals, h', he => by
    simp only [evalAttrs] at he
    split at he
    · split at he
      · cases he
      split at he
      · cases he
      rename_i h1 ha
      split at he
      · cases he
      rename_i hr
      cases he
      exact (addItem_step ha).trans (evalAttrs_step hr)
    · cases he

theorem addBlockNodes_step {node} : ∀ {blocks : List (Bytes × List Bytes × Body)} {h h'}, addBlockNodes node blocks h = .ok h' → HeapStep h h'
  | [], h, h', he => by cases he; exact HeapStep.refl _
  | x :: r, h, h', he => by
    simp only [addBlockNodes] at he
    split at he
    · cases he
    rename_i h1
    exact (addNodes_step h1).trans (addBlockNodes_step he)

theorem oriAttrs_step {nulls lf vals node} : ∀ {ks h h'}, oriAttrs nulls lf vals node ks h = .ok h' → HeapStep h h'
  | [], h, h', he => by cases he; exact HeapStep.refl _
  | k :: ks, h, h', he => by
    simp only [oriAttrs] at he
    split at he
    · exact oriAttrs_step he
    split at he
    · split at he
      · cases he
      rename_i h1
      exact (addNode_step h1).trans (oriAttrs_step he)
    · cases he

theorem heapRel {ext} (hd : DynAdds ext) (env root) : StRel env ext root fun st st' => HeapStep st.heap st'.heap where
  refl _ := HeapStep.refl _
  trans _ _ _ h h' := h.trans h'
  prep n st node cls obj path body p h := by
    obtain ⟨h1, h2, hpre, ho, he, _⟩ := prepare_ok h
    obtain ⟨h3, hv, hb, hl⟩ := prelude_ok hpre
    rw [he]
    exact ((evalAttrs_step hv).trans (addBlockNodes_step hb)).trans (oriAttrs_step ho)
  attr _ _ _ _ _ _ h := fun hi => hd.attr _ _ _ _ _ _ hi h
  block _ _ _ _ _ _ h := fun hi => hd.block _ _ _ _ _ _ hi h

/-! ## Both -/

theorem laterRel (env ext root) : StRel env ext root (Later env ext) where
  refl st := ⟨RefStep.refl _ _ _, fun _ => HeapStep.refl _⟩
  trans _ _ _ h h' := ⟨RefStep.trans h.ref h'.ref, fun hd => HeapStep.trans (h.heap hd) (h'.heap hd)⟩
  prep _ _ _ _ _ _ _ _ h := ⟨(refRel env ext root).prep _ _ _ _ _ _ _ _ h, fun hd => (heapRel hd env root).prep _ _ _ _ _ _ _ _ h⟩
  attr _ _ _ _ _ _ h := ⟨RefStep.refl _ _ _, fun hd => (heapRel hd env root).attr _ _ _ _ _ _ h⟩
  block _ _ _ _ _ _ h := ⟨RefStep.refl _ _ _, fun hd => (heapRel hd env root).block _ _ _ _ _ _ h⟩

theorem BlockFrom.later {env ext root n node tag cls labels body st st' c out}
    (h : BlockFrom env ext root n node tag cls labels body st st' c out) : Later env ext st st' := by
  obtain ⟨content, path, sub, _, _, hd⟩ := h
  exact decode_rel (laterRel env ext root) n _ _ _ _ _ _ _ _ _ _ hd

theorem BlockFrom.block {env ext root n node tag cls labels body base st st' c out}
    (h : BlockFrom env ext root n node tag cls labels body st st' c out) (hb : Later env ext base st) :
    BlockAs env ext root n node base tag cls labels body st st' c out := ⟨hb, h⟩

/-- The states between the blocks are reached from the one at the beginning. -/
theorem later_chain {env : Env} {ext : Ext} {base : St} {s : Nat → St} {len : Nat} (h0 : Later env ext base (s 0))
    (hs : ∀ k < len, Later env ext (s k) (s (k + 1))) : ∀ k < len, Later env ext base (s k)
  | 0, _ => h0
  | k + 1, h => (laterRel env ext 0).trans _ _ _ (later_chain h0 hs k (by omega)) (hs k (by omega))

/-- The state before one of the assignments. -/
theorem steps_later {env ext root n st node cls obj path body p rec labels l fs1 st1 fs}
    (hp : prepare env ext n root st node cls obj path body = .ok p) (hrec : RecRel (Later env ext) rec)
    (hl : ∀ s ∈ l, s ∈ steps env ext rec p node labels path body) (h : runSteps l fs ⟨p.heap, p.lf.ref⟩ = (fs1, .ok st1)) :
    Later env ext st st1 :=
  (laterRel env ext root).trans _ _ _ ((laterRel env ext root).prep _ _ _ _ _ _ _ _ hp)
    (runSteps_rel (laterRel env ext root) (fun s hs => steps_rel (laterRel env ext root) hrec s (hl s hs)) h)

theorem defaultTree_step (h root) : HeapStep h (defaultTree h root).1 := by
  cases root with
  | some r => exact HeapStep.refl _
  | none =>
    intro hi
    refine ⟨hi.newTree _, by simp [defaultTree, Tree.newTree], ?_⟩
    intro i n c hc
    exact Tree.child_runAll hi (ops := [.newTree Tree.VAR]) (h' := (Tree.newTree h Tree.VAR).1) (by simp [Tree.runAll, Tree.Op.run]) (by simp) hc

theorem defaultTree_root {h : Heap Cty} {root} (hr : ∀ r, root = some r → r < h.length) :
    (defaultTree h root).2 < (defaultTree h root).1.length := by
  cases root with
  | some r => exact hr r rfl
  | none => simp [defaultTree, Tree.newTree]

theorem literal_reorder {ext : Ext} (o) {body : Body} (h : Literal ext body) : Literal (ext.reorder o) body := by
  induction h with
  | mk h1 h2 h3 _ _ ih1 ih2 => exact .mk h1 h2 h3 ih1 ih2

end Verif.HclS
