import Verif.Spec.HclStructRef
import Verif.Lemmas.HclStructAgain
/-!
# Decoding with two registries
-/
namespace Verif.HclS
open Tree (Heap)
open Hcl (Cty)
open Det (Cls CVal KeyTy)

variable {env : Env} {ext : Ext} {base base' : GoMap Bytes Tmpl}

/-- Two registries that agree on some names, and otherwise agree or are as they were at first. -/
structure RegSim (base base' : GoMap Bytes Tmpl) (P : Bytes → Prop) (ref ref' : GoMap Bytes Tmpl) : Prop where
  on : ∀ k, P k → GoMap.get? ref' k = GoMap.get? ref k
  rest : ∀ k, GoMap.get? ref' k = GoMap.get? ref k ∨ GoMap.get? ref k = GoMap.get? base k ∧ GoMap.get? ref' k = GoMap.get? base' k

/-- States that differ in such registries only. -/
structure RegSt (base base' : GoMap Bytes Tmpl) (P : Bytes → Prop) (st st' : St) : Prop where
  heap : st'.heap = st.heap
  ref : RegSim base base' P st.ref st'.ref

/-- Equal results with such states. -/
inductive RegBoth {α : Type} (base base' : GoMap Bytes Tmpl) (P : Bytes → Prop) : Except Fail (α × St) → Except Fail (α × St) → Prop where
  | ok {a s s'} : RegSt base base' P s s' → RegBoth base base' P (.ok (a, s)) (.ok (a, s'))
  | err {e} : RegBoth base base' P (.error e) (.error e)

inductive RegBothR (base base' : GoMap Bytes Tmpl) (P : Bytes → Prop) : Fields × Except Fail St → Fields × Except Fail St → Prop where
  | ok {fs s s'} : RegSt base base' P s s' → RegBothR base base' P (fs, .ok s) (fs, .ok s')
  | err {fs e} : RegBothR base base' P (fs, .error e) (fs, .error e)

theorem RegSim.weaken {P Q : Bytes → Prop} {r r'} (h : RegSim base base' Q r r') (hPQ : ∀ k, P k → Q k) : RegSim base base' P r r' :=
  ⟨fun k hk => h.on k (hPQ k hk), h.rest⟩

theorem RegBothR.weaken {P Q : Bytes → Prop} {r r'} (h : RegBothR base base' Q r r') (hPQ : ∀ k, P k → Q k) : RegBothR base base' P r r' := by
  cases h with
  | ok h => exact .ok ⟨h.heap, h.ref.weaken hPQ⟩
  | err => exact .err

theorem RegSim.set {P : Bytes → Prop} {r r'} (h : RegSim base base' P r r') (nm : Bytes) (t : Tmpl) :
    RegSim base base' (fun k => P k ∨ k = nm) (GoMap.set r nm t) (GoMap.set r' nm t) := by
  constructor
  · intro k hk
    rw [GoMap.get?_set, GoMap.get?_set]
    split
    · rfl
    · rename_i hne
      rcases hk with hk | hk
      · exact h.on k hk
      · exact absurd hk (by first | exact hne | exact fun e => hne e.symm)
  · intro k
    rw [GoMap.get?_set, GoMap.get?_set]
    split
    · exact Or.inl rfl
    · exact h.rest k

/-! ## Blocks -/

section blocks
variable {P : Bytes → Prop} {rec : Rec}

/-- The calls for blocks do the same. -/
def RegRec (base base' : GoMap Bytes Tmpl) (rec : Rec) : Prop :=
  ∀ (P : Bytes → Prop) path st st' node c fs obj labels body, RegSt base base' P st st' → (∀ x, NamesIn obj x → P x) →
    RegBothR base base' P (rec path st node c fs obj labels body) (rec path st' node c fs obj labels body)

variable (hr : RegRec base base' rec)
include hr

theorem decodeBlock_sim2 {path st st' node tag blk a ml} (hs : RegSt base base' P st st') (ha : ∀ x, Within a x → P x) :
    RegBoth base base' P (decodeBlock rec path st node tag blk a ml) (decodeBlock rec path st' node tag blk a ml) := by
  simp only [decodeBlock]
  rw [hs.heap, hs.ref.on _ (ha _ (.self a))]
  cases Tree.getNode st.heap node tag blk.labels with
  | none => exact .err
  | some sub =>
    cases GoMap.get? st.ref a.name with
    | none => exact .err
    | some t =>
      cases t with
      | nil => exact .err
      | bad => exact .err
      | ptr c content =>
        dsimp only
        split
        · exact .err
        · cases blk.body with
          | none => exact .err
          | some body =>
            cases sub with
            | none => exact .err
            | some sub =>
              dsimp only
              have hb := hr P path st st' sub c content a.fields blk.labels body hs
                (fun x ⟨k, v, c, hk, hc, hx⟩ => ha x (.field hk hc hx))
              revert hb
              generalize rec path st sub c content a.fields blk.labels body = r1
              generalize rec path st' sub c content a.fields blk.labels body = r2
              intro hb
              cases hb with
              | ok h => exact .ok h
              | err => exact .err

theorem listLoop_sim2 {path node tag ety first} (hf : ∀ x, Within first x → P x) : ∀ {blks cs st st'}, (∀ c ∈ cs, ∀ x, Within c x → P x) → RegSt base base' P st st' →
    RegBoth base base' P (listLoop env rec path node tag ety first cs blks st) (listLoop env rec path node tag ety first cs blks st')
  | [], _, _, _, _, hs => by simp only [listLoop]; exact .ok hs
  | blk :: blks, cs, st, st', hcs, hs => by
    simp only [listLoop]
    have hhd : ∀ x, Within (cs.headD first) x → P x := by
      cases cs with
      | nil => exact hf
      | cons c cs => exact hcs c (by simp)
    have hb := decodeBlock_sim2 hr (path := place path tag blks) (node := node) (tag := tag) (blk := blk) (ml := none) hs hhd
    revert hb
    generalize decodeBlock rec (place path tag blks) st node tag blk (cs.headD first) none = r1
    generalize decodeBlock rec (place path tag blks) st' node tag blk (cs.headD first) none = r2
    intro hb
    cases hb with
    | err => exact .err
    | @ok a s s' h =>
      obtain ⟨c, fs⟩ := a
      dsimp only
      cases store env ety c fs with
      | error e => exact .err
      | ok v =>
        dsimp only
        have hl := listLoop_sim2 (path := path) (node := node) (tag := tag) (ety := ety) hf (blks := blks) (cs := cs.tail) (fun c hc => hcs c (List.mem_of_mem_tail hc)) h
        revert hl
        generalize listLoop env rec path node tag ety first cs.tail blks s = r1
        generalize listLoop env rec path node tag ety first cs.tail blks s' = r2
        intro hl
        cases hl with
        | err => exact .err
        | ok h => exact .ok h

theorem listMapLoop_sim2 {path node tag kt ety first} (hf : ∀ x, Within first x → P x) : ∀ {blks st st' acc}, RegSt base base' P st st' →
    RegBoth base base' P (listMapLoop env rec path node tag kt ety first blks st acc) (listMapLoop env rec path node tag kt ety first blks st' acc)
  | [], _, _, _, hs => by simp only [listMapLoop]; exact .ok hs
  | blk :: blks, st, st', acc, hs => by
    simp only [listMapLoop]
    have hb := decodeBlock_sim2 hr (path := place path tag blks) (node := node) (tag := tag) (blk := blk) (ml := none) hs hf
    revert hb
    generalize decodeBlock rec (place path tag blks) st node tag blk first none = r1
    generalize decodeBlock rec (place path tag blks) st' node tag blk first none = r2
    intro hb
    cases hb with
    | err => exact .err
    | @ok a s s' h =>
      obtain ⟨c, fs⟩ := a
      dsimp only
      cases blk.labels with
      | nil => exact .err
      | cons key _ =>
        dsimp only
        split
        · cases store env ety c fs with
          | error e => exact .err
          | ok v => exact listMapLoop_sim2 hf h
        · exact .err

theorem mapLoop_sim2 {path node tag kt ety m first} (hm : ∀ k c, GoMap.get? m k = some c → ∀ x, Within c x → P x) (hf : ∀ c, first = some c → ∀ x, Within c x → P x) :
    ∀ {blks st st' acc}, RegSt base base' P st st' →
    RegBoth base base' P (mapLoop env rec path node tag kt ety m first blks st acc) (mapLoop env rec path node tag kt ety m first blks st' acc)
  | [], _, _, _, hs => by simp only [mapLoop]; exact .ok hs
  | blk :: blks, st, st', acc, hs => by
    simp only [mapLoop]
    cases blk.labels with
    | nil => exact .err
    | cons key _ =>
      dsimp only
      cases ho : (GoMap.get? m key).or first with
      | none => exact .err
      | some cls =>
        have hc : ∀ x, Within cls x → P x := by
          cases hg : GoMap.get? m key with
          | none => rw [hg] at ho; exact hf cls ho
          | some c => rw [hg] at ho; cases ho; exact hm key _ hg
        simp only [orPanic]
        have hb := decodeBlock_sim2 hr (path := place path tag blks) (node := node) (tag := tag) (blk := blk) (ml := some 1) hs hc
        revert hb
        generalize decodeBlock rec (place path tag blks) st node tag blk cls (some 1) = r1
        generalize decodeBlock rec (place path tag blks) st' node tag blk cls (some 1) = r2
        intro hb
        cases hb with
        | err => exact .err
        | @ok a s s' h =>
          obtain ⟨c, fs⟩ := a
          dsimp only
          split
          · cases store env ety c fs with
            | error e => exact .err
            | ok v => exact mapLoop_sim2 hm hf h
          · exact .err

theorem map2Loop_sim2 {path node tag kt ety m first ff} (hm : ∀ k m', GoMap.get? m k = some m' → ∀ k c, GoMap.get? m' k = some c → ∀ x, Within c x → P x)
    (hf : ∀ m', first = some m' → ∀ k c, GoMap.get? m' k = some c → ∀ x, Within c x → P x) (hff : ∀ c, ff = some c → ∀ x, Within c x → P x) :
    ∀ {blks st st' acc}, RegSt base base' P st st' →
    RegBoth base base' P (map2Loop env rec path node tag kt ety m first ff blks st acc) (map2Loop env rec path node tag kt ety m first ff blks st' acc)
  | [], _, _, _, hs => by simp only [map2Loop]; exact .ok hs
  | blk :: blks, st, st', acc, hs => by
    simp only [map2Loop]
    cases ho : (GoMap.get? ((GoMap.get? m (blk.labels.getD 0 [])).getD (first.getD [])) (blk.labels.getD 1 [])).or ff with
    | none => exact .err
    | some cls =>
      have hc : ∀ x, Within cls x → P x := by
        cases hg : GoMap.get? ((GoMap.get? m (blk.labels.getD 0 [])).getD (first.getD [])) (blk.labels.getD 1 []) with
        | none => rw [hg] at ho; exact hff cls ho
        | some c =>
          rw [hg] at ho
          cases ho
          cases hg1 : GoMap.get? m (blk.labels.getD 0 []) with
          | some m' => rw [hg1] at hg; exact hm _ m' hg1 _ _ hg
          | none =>
            rw [hg1] at hg
            cases first with
            | none => cases hg
            | some m' => exact hf m' rfl _ _ hg
      simp only [orPanic]
      have hb := decodeBlock_sim2 hr (path := place path tag blks) (node := node) (tag := tag) (blk := blk) (ml := some 2) hs hc
      revert hb
      generalize decodeBlock rec (place path tag blks) st node tag blk cls (some 2) = r1
      generalize decodeBlock rec (place path tag blks) st' node tag blk cls (some 2) = r2
      intro hb
      cases hb with
      | err => exact .err
      | @ok a s s' h =>
        obtain ⟨c, fs⟩ := a
        dsimp only
        split
        · cases store env ety c fs with
          | error e => exact .err
          | ok v => exact map2Loop_sim2 hm hf hff h
        · exact .err

omit hr in
theorem RegBoth.map {α β : Type} {r r' : Except Fail (α × St)} (h : RegBoth base base' P r r') (g : α → β) :
    RegBoth base base' P (r.map fun x => (g x.1, x.2)) (r'.map fun x => (g x.1, x.2)) := by
  cases h with
  | ok h => exact .ok h
  | err => exact .err

theorem oriValue_sim2 {path node tag ty v blks st st'} (hv : ∀ c ∈ classesOf v, ∀ x, Within c x → P x) (hs : RegSt base base' P st st') :
    RegBoth base base' P (oriValue env ext rec path node tag ty v blks st) (oriValue env ext rec path node tag ty v blks st') := by
  have hmem : ∀ {α : Type} {m : List (Bytes × α)} {k c}, GoMap.get? m k = some c → (k, c) ∈ m := fun h => GoMap.get?_mem h
  simp only [oriValue]
  cases v with
  | none => exact .ok hs
  | single cls =>
    cases blks with
    | nil => exact .err
    | cons blk blks =>
      dsimp only
      have hb := decodeBlock_sim2 hr (path := place path tag blks) (node := node) (tag := tag) (blk := blk) (a := cls) (ml := none) hs (hv cls (by simp [classesOf]))
      revert hb
      generalize decodeBlock rec (place path tag blks) st node tag blk cls none = r1
      generalize decodeBlock rec (place path tag blks) st' node tag blk cls none = r2
      intro hb
      cases hb with
      | err => exact .err
      | @ok a s s' h =>
        obtain ⟨c, fs⟩ := a
        dsimp only
        cases store env ty c fs with
        | error e => exact .err
        | ok v => exact .ok h
  | list l =>
    cases l with
    | nil => exact .err
    | cons first cs =>
      have h1 : ∀ c ∈ first :: cs, ∀ x, Within c x → P x := fun c hc => hv c hc
      cases ty <;> dsimp only <;> first
        | exact .err
        | exact (listMapLoop_sim2 hr (h1 first (by simp)) hs).map (fun x => some (Val.map x))
        | exact (listLoop_sim2 hr (h1 first (by simp)) h1 hs).map (fun x => some (Val.slice x))
  | map m =>
    have h1 : ∀ k c, GoMap.get? m k = some c → ∀ x, Within c x → P x := fun k c hk => hv c (List.mem_map.2 ⟨_, hmem hk, rfl⟩)
    cases ty <;> dsimp only <;> first
      | exact .err
      | refine (mapLoop_sim2 hr h1 (fun c hc => ?_) hs).map (fun x => some (Val.map x))
    simp only [firstOf] at hc
    obtain ⟨k, _, hk⟩ := Option.bind_eq_some_iff.1 hc
    exact h1 k c hk
  | map2 m =>
    have h1 : ∀ k m', GoMap.get? m k = some m' → ∀ k c, GoMap.get? m' k = some c → ∀ x, Within c x → P x := fun k m' hk k' c hk' =>
      hv c (List.mem_flatMap.2 ⟨_, hmem hk, List.mem_map.2 ⟨_, hmem hk', rfl⟩⟩)
    have h2 : ∀ {o : List Bytes} {m'}, o.head?.bind (GoMap.get? m) = some m' → ∀ k c, GoMap.get? m' k = some c → ∀ x, Within c x → P x := by
      intro o m' hc
      obtain ⟨k, _, hk⟩ := Option.bind_eq_some_iff.1 hc
      exact h1 k m' hk
    cases ty <;> dsimp only <;> first
      | exact .err
      | refine (map2Loop_sim2 hr h1 (fun m' hm' => h2 hm') (fun c hc => ?_) hs).map (fun x => some (Val.map2 x))
    obtain ⟨m', hm', hk⟩ := Option.bind_eq_some_iff.1 hc
    simp only [firstOf] at hk
    obtain ⟨k, _, hk⟩ := Option.bind_eq_some_iff.1 hk
    exact h2 hm' k c hk

/-- A step that does the same. -/
def RegStep (base base' : GoMap Bytes Tmpl) (P : Bytes → Prop) (s s' : Step) : Prop :=
  ∀ fs st st', RegSt base base' P st st' → RegBoth base base' P (s fs st) (s' fs st')

theorem oriStep_sim2 {nulls lf body vals path node f r'} (hobj : ∀ x, NamesIn lf.obj x → P x) :
    RegStep base base' P (oriStep env ext rec nulls lf body vals path node f) (oriStep env ext rec nulls { lf with ref := r' } body vals path node f) := by
  intro fs st st' hs
  have hbl : oriBlocks ext nulls { lf with ref := r' } body vals f.tag = oriBlocks ext nulls lf body vals f.tag := rfl
  simp only [oriStep, hbl]
  cases oriBlocks ext nulls lf body vals f.tag with
  | nil => exact .ok hs
  | cons blk blks =>
    dsimp only
    have hv : ∀ c ∈ classesOf ((GoMap.get? lf.obj f.name).getD .none), ∀ x, Within c x → P x := by
      cases hg : GoMap.get? lf.obj f.name with
      | none => intro c hc; cases hc
      | some v => exact fun c hc x hx => hobj x ⟨_, v, c, hg, hc, hx⟩
    have hb := oriValue_sim2 (env := env) (ext := ext) hr (path := path) (node := node) (tag := f.tag) (ty := f.ty) (blks := blk :: blks) hv hs
    revert hb
    generalize oriValue env ext rec path node f.tag f.ty ((GoMap.get? lf.obj f.name).getD .none) (blk :: blks) st = r1
    generalize oriValue env ext rec path node f.tag f.ty ((GoMap.get? lf.obj f.name).getD .none) (blk :: blks) st' = r2
    intro hb
    cases hb with
    | err => exact .err
    | @ok a s s' h =>
      cases a with
      | none => exact .ok h
      | some v =>
        dsimp only
        cases setF f.name v fs with
        | error e => exact .err
        | ok fs => exact .ok h

end blocks

theorem stateless_sim2 {P : Bytes → Prop} {s : Step} (h : Stateless s) : RegStep base base' P s s := by
  intro fs st st' hs
  obtain ⟨g, hg⟩ := h
  rw [hg, hg]
  cases g fs with
  | error e => exact .err
  | ok fs => exact .ok hs

theorem decStep_ref {nulls lf body vals node f fs h r r'} :
    decStep ext nulls lf body vals node f fs ⟨h, r'⟩ = (decStep ext nulls lf body vals node f fs ⟨h, r⟩).map fun x => (x.1, ⟨x.2.heap, r'⟩) := by
  have fin : ∀ o : Option (Except Fail (Val × Heap Cty)),
      (match o with
        | none => .ok (fs, ⟨h, r'⟩)
        | some (.error e) => .error e
        | some (.ok (v, h)) =>
          if f.ty = .slice .any ∨ f.ty = .map .str .any then (setF f.name v fs).map fun fs => (fs, (⟨h, r'⟩ : St))
          else .error .panic : Except Fail (Fields × St)) =
      (match o with
        | none => .ok (fs, ⟨h, r⟩)
        | some (.error e) => .error e
        | some (.ok (v, h)) =>
          if f.ty = .slice .any ∨ f.ty = .map .str .any then (setF f.name v fs).map fun fs => (fs, (⟨h, r⟩ : St))
          else .error .panic : Except Fail (Fields × St)).map fun x => (x.1, ⟨x.2.heap, r'⟩) := by
    intro o
    cases o with
    | none => rfl
    | some e =>
      cases e with
      | error e => rfl
      | ok w =>
        dsimp only
        split
        · cases setF f.name w.1 fs <;> rfl
        · rfl
  exact fin _

theorem decStep_sim2 {P : Bytes → Prop} {nulls lf body vals node f} :
    RegStep base base' P (decStep ext nulls lf body vals node f) (decStep ext nulls lf body vals node f) := by
  intro fs st st' hs
  obtain ⟨h, r⟩ := st
  obtain ⟨h', r'⟩ := st'
  obtain ⟨rfl, hr⟩ := hs
  have h1 := decStep_ref (ext := ext) (nulls := nulls) (lf := lf) (body := body) (vals := vals) (node := node) (f := f) (fs := fs) (h := h') (r := r) (r' := r)
  rw [decStep_ref (r := r) (r' := r')]
  revert h1
  cases decStep ext nulls lf body vals node f fs ⟨h', r⟩ with
  | error e => intro _; exact .err
  | ok x =>
    intro h1
    obtain ⟨fs', ⟨h2, r2⟩⟩ := x
    simp only [Except.map, Except.ok.injEq, Prod.mk.injEq, St.mk.injEq, true_and] at h1
    subst h1
    exact .ok ⟨rfl, hr⟩

theorem runSteps_sim2 {P : Bytes → Prop} : ∀ {l l' : List Step}, List.Forall₂ (RegStep base base' P) l l' → ∀ {fs st st'}, RegSt base base' P st st' →
    RegBothR base base' P (runSteps l fs st) (runSteps l' fs st')
  | _, _, .nil, _, _, _, hs => by simp only [runSteps]; exact .ok hs
  | _, _, .cons (a := s) (b := s') h hl, fs, st, st', hs => by
    simp only [runSteps]
    have hb := h fs st st' hs
    revert hb
    generalize s fs st = r1
    generalize s' fs st' = r2
    intro hb
    cases hb with
    | err => exact .err
    | ok h => exact runSteps_sim2 hl h

/-! ## `loopFields` -/

/-- Results of `loopFields` that differ in the registries only. -/
inductive RegLF (base base' : GoMap Bytes Tmpl) (P0 : Bytes → Prop) : Except Fail LF → Except Fail LF → Prop where
  | ok {lf : LF} {r' : GoMap Bytes Tmpl} (P : Bytes → Prop) (more : ∀ k, P0 k → P k) (sim : RegSim base base' P lf.ref r') (obj : ∀ x, NamesIn lf.obj x → P x) :
      RegLF base base' P0 (.ok lf) (.ok { lf with ref := r' })
  | err {e} : RegLF base base' P0 (.error e) (.error e)

theorem RegLF.weaken {P Q : Bytes → Prop} {r r'} (h : RegLF base base' Q r r') (hPQ : ∀ k, P k → Q k) : RegLF base base' P r r' := by
  cases h with
  | ok P' more sim obj => exact .ok P' (fun k hk => more k (hPQ k hk)) sim obj
  | err => exact .err

theorem auto_classes {f : Fld} {nm : Bytes} {tm : Tmpl} {v : CVal} (h : auto env ext f = some (nm, tm, v)) : classesOf v = [.mk nm []] := by
  simp only [auto] at h
  split at h
  · cases h; rfl
  all_goals first
    | (split at h
       · rename_i hk; cases h; rfl
       · cases h)
    | cases h

theorem loopList_sim2 {nulls : List Bytes} {deep : List Fld → LF → Except Fail LF}
    (hdeep : ∀ fs P lf r', RegSim base base' P lf.ref r' → (∀ x, NamesIn lf.obj x → P x) → RegLF base base' P (deep fs lf) (deep fs { lf with ref := r' })) :
    ∀ fs P lf r', RegSim base base' P lf.ref r' → (∀ x, NamesIn lf.obj x → P x) →
      RegLF base base' P (loopList env ext nulls deep fs lf) (loopList env ext nulls deep fs { lf with ref := r' }) := by
  intro fs
  induction fs with
  | nil => intro P lf r' hs ho; simp only [loopList]; exact .ok P (fun _ h => h) hs ho
  | cons f fs ih =>
    intro P lf r' hs ho
    simp only [loopList]
    split
    · exact ih P lf r' hs ho
    split
    · exact ih P lf r' hs ho
    split
    · exact ih P { lf with labels := lf.labels ++ [f] } r' hs ho
    split
    · exact ih P lf r' hs ho
    split
    · split
      · exact .err
      · exact ih P { lf with oris := lf.oris ++ [f] } r' hs ho
    split
    · cases f.ty.structOf with
      | none => exact ih P lf r' hs ho
      | some c =>
        dsimp only
        have hb := hdeep (env.struct c).fields P lf r' hs ho
        revert hb
        generalize deep (env.struct c).fields lf = r1
        generalize deep (env.struct c).fields { lf with ref := r' } = r2
        intro hb
        cases hb with
        | err => exact .err
        | ok P' more sim obj => exact (ih P' _ _ sim obj).weaken more
    · cases ha : auto env ext f with
      | none =>
        rcases addTagged_none ha with hadd | hadd
        · rw [hadd, hadd]; exact ih P { lf with news := lf.news ++ [f] } r' hs ho
        · rw [hadd, hadd]; exact ih P { lf with decs := lf.decs ++ [f] } r' hs ho
      | some e =>
        obtain ⟨nm, tm, v⟩ := e
        rw [addTagged_auto ha, addTagged_auto ha]
        refine (ih (fun k => P k ∨ k = nm) (lf.addOri f nm tm v) (GoMap.set r' nm tm) (hs.set nm tm) ?_).weaken fun k hk => Or.inl hk
        rintro x ⟨k, u, c, hk, hc, hx⟩
        simp only [LF.addOri, GoMap.get?_set] at hk
        split at hk
        · cases hk
          rw [auto_classes ha, List.mem_singleton] at hc
          subst hc
          cases hx with
          | self => exact Or.inr rfl
          | field hk _ _ => cases hk
        · exact Or.inl (ho x ⟨k, u, c, hk, hc, hx⟩)

theorem loopFields_sim2 {nulls : List Bytes} : ∀ n fs P lf r', RegSim base base' P lf.ref r' → (∀ x, NamesIn lf.obj x → P x) →
    RegLF base base' P (loopFields env ext nulls n fs lf) (loopFields env ext nulls n fs { lf with ref := r' })
  | 0 => loopList_sim2 fun _ _ _ _ _ _ => .err
  | n + 1 => loopList_sim2 (loopFields_sim2 n)

theorem oriAttrs_ref (nulls : List Bytes) (lf : LF) (r' : GoMap Bytes Tmpl) (vals : List (Bytes × Cty)) (node : Nat) :
    ∀ ks h, oriAttrs nulls { lf with ref := r' } vals node ks h = oriAttrs nulls lf vals node ks h := by
  intro ks
  induction ks with
  | nil => intro h; rfl
  | cons k ks ih =>
    intro h
    have hr : routed nulls { lf with ref := r' } vals .ori k = routed nulls lf vals .ori k := rfl
    simp only [oriAttrs, hr, ih]

theorem forall2_map {α β γ : Type} {R : β → γ → Prop} {g : α → β} {g' : α → γ} : ∀ {l : List α}, (∀ a ∈ l, R (g a) (g' a)) → List.Forall₂ R (l.map g) (l.map g')
  | [], _ => .nil
  | a :: l, h => .cons (h a (by simp)) (forall2_map fun a ha => h a (by simp [ha]))

theorem forall2_append {β γ : Type} {R : β → γ → Prop} : ∀ {l m : List β} {l' m' : List γ}, List.Forall₂ R l l' → List.Forall₂ R m m' → List.Forall₂ R (l ++ m) (l' ++ m')
  | _, _, _, _, .nil, h => h
  | _, _, _, _, .cons h hl, h' => .cons h (forall2_append hl h')

theorem decode_sim2 {root : Nat} : ∀ n, RegRec base base' (decode env ext root n)
  | 0 => by intro P path st st' node c fs obj labels body hs ho; simp only [decode]; exact .err
  | n + 1 => by
    intro P path st st' node c fs obj labels body hs ho
    simp only [decode, decodeStruct, prepare, prelude, hs.heap]
    cases evalAttrs ext root node body.attrs (ext.ord (path ++ [b "attributes"]) (GoMap.keys body.attrs)) st.heap with
    | error e => exact .err
    | ok r =>
      obtain ⟨vals, h⟩ := r
      dsimp only
      cases addBlockNodes node body.blocks h with
      | error e => exact .err
      | ok h =>
        dsimp only
        have hb := loopFields_sim2 (env := env) (ext := ext) (nulls := nullKeys vals) n (env.struct c).fields P ⟨[], [], [], [], obj, st.ref⟩ st'.ref hs.ref ho
        revert hb
        generalize loopFields env ext (nullKeys vals) n (env.struct c).fields ⟨[], [], [], [], obj, st.ref⟩ = r1
        generalize loopFields env ext (nullKeys vals) n (env.struct c).fields ⟨[], [], [], [], obj, st'.ref⟩ = r2
        intro hb
        cases hb with
        | err => exact .err
        | @ok lf r' P' more sim hobj =>
          dsimp only
          rw [oriAttrs_ref (nullKeys vals) lf r' vals node]
          cases oriAttrs (nullKeys vals) lf vals node (ext.ord (path ++ [b "refresh"]) (GoMap.keys body.attrs)) h with
          | error e => exact .err
          | ok h1 =>
            dsimp only
            have hg : gohclDecode ext { lf with ref := r' } body (routed (nullKeys vals) { lf with ref := r' } vals .plain) =
              gohclDecode ext lf body (routed (nullKeys vals) lf vals .plain) := rfl
            rw [hg]
            cases gohclDecode ext lf body (routed (nullKeys vals) lf vals .plain) with
            | error e => exact .err
            | ok raw =>
              dsimp only
              refine RegBothR.weaken (runSteps_sim2 (P := P') ?_ ⟨rfl, sim⟩) more
              simp only [steps]
              refine forall2_append (forall2_append (forall2_append (forall2_append ?_ ?_) ?_) ?_) ?_
              · exact forall2_map fun g _ => stateless_sim2 (labelAttrStep_stateless _ _)
              · simp only [labelSteps]
                split
                · exact forall2_map fun g _ => stateless_sim2 (labelStep_stateless _)
                · exact .nil
              · exact forall2_map fun g _ => stateless_sim2 (newStep_stateless _ _)
              · exact forall2_map fun g _ => decStep_sim2
              · exact forall2_map fun g _ => oriStep_sim2 (decode_sim2 n) hobj

end Verif.HclS
