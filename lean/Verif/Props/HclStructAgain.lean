import Verif.Props.HclStructMore
import Verif.Lemmas.HclStructAgain
/-!
# Using a specification again
-/
set_option linter.unusedSimpArgs false
namespace Verif.HclS
open Tree (Heap)
open Hcl (Cty Expr)
open Det (Cls CVal)

/-- **C161 is violated**: a call leaves its own entries in the specification but the classes that they name in `ref`.  With another `ref` (or none) the
second call for the same document fails, although the first did not; the same call with a new specification does not fail. -/
theorem C161_violated :
    let one := Body.mk [] [(b "one", [b "a"], Demo.leaf "1")]
    let items := Body.mk [] [(b "items", [b "a"], Demo.leaf "1")]
    let first := Demo.call (some []) ⟨[], Demo.ref0⟩ none one
    first.outcome = .ok () ∧ (Demo.call (some []) ⟨[], Demo.ref0⟩ none items).outcome = .ok () ∧
    (Demo.call first.spec ⟨[], Demo.ref0⟩ none one).outcome = .error .err ∧
    (Demo.call first.spec ⟨[], Demo.ref0⟩ none items).outcome = .error .err := ⟨rfl, rfl, rfl, rfl⟩

/-- What calls leave behind. -/
structure Left (env : Env) (ext : Ext) (n cls : Nat) (obj : List (Bytes × CVal)) (st : St) (spec1 : Option (List (Bytes × CVal))) (st1 : St)
    (root1 : Option Nat) : Prop where
  spec : ∃ o, spec1 = some o ∧ (∀ k v, GoMap.get? obj k = some v → GoMap.get? o k = some v) ∧
    ∀ k v, GoMap.get? o k = some v → GoMap.get? obj k = some v ∨ SelfMade env ext (whole env n (env.struct cls).fields) st1.ref k v
  ref : RefStep env ext st.ref st1.ref
  heap : Tree.Inv st1.heap
  root : ∀ r, root1 = some r → r < st1.heap.length

theorem used_left {env : Env} {ext : Ext} {n cls : Nat} {obj : List (Bytes × CVal)} {st st1 : St} {root root1 : Option Nat}
    {spec1 : Option (List (Bytes × CVal))} (hdyn : DynAdds ext) (hinv : Tree.Inv st.heap) (hroot : ∀ r, root = some r → r < st.heap.length)
    (hone : OneNew env ext) (h : Used env ext n cls (some obj) st root spec1 st1 root1) : Left env ext n cls obj st spec1 st1 root1 := by
  induction h with
  | start => exact ⟨⟨obj, rfl, fun _ _ h => h, fun _ _ h => Or.inl h⟩, RefStep.refl _ _ _, hinv, hroot⟩
  | @call spec1 st1 root1 a body target labels _ ha hok ih =>
    obtain ⟨⟨o, rfl, hsub, hown⟩, hrs, hi, hlt⟩ := ih
    obtain ⟨hr, _, _, hi', _⟩ := C60_partial hdyn hi a ha hok
    subst ha
    cases body with
    | none => cases hok
    | some body =>
      have hlt' := defaultTree_root hlt
      obtain ⟨hi0, hle0⟩ := defaultTree_step st1.heap root1 hi
      generalize hd : defaultTree st1.heap root1 = d at hlt' hi0
      obtain ⟨h, r⟩ := d
      simp only [unmarshalSpec, hd] at hok hr hi' ⊢
      cases hrun : decode env ext r (n + 1) [] ⟨h, st1.ref⟩ r cls target ((some o).getD []) labels body with
      | mk fs out =>
        rw [hrun] at hok hr hi'
        cases out with
        | error e => cases hok
        | ok st2 =>
          obtain ⟨_, hl1⟩ := decode_rel (heapRel hdyn env r) _ _ _ _ _ _ _ _ _ _ _ hrun hi0
          obtain ⟨p, hp, hs⟩ := decode_ok hrun
          obtain ⟨_, _, hpre, _, _, _⟩ := prepare_ok hp
          obtain ⟨_, _, _, hl⟩ := prelude_ok hpre
          simp only [Option.getD_some] at hpre hl
          refine ⟨⟨p.lf.obj, by simp only [specAfter, Option.map_some, hpre], fun k v hk => (loopFields_grows _ _ _ _ hl).obj _ _ (hsub k v hk), ?_⟩,
            hrs.trans hr, hi', fun r' hr' => by cases hr'; exact Nat.lt_of_lt_of_le hlt' hl1.length⟩
          intro k v hk
          rcases loopFields_filled (A := whole env n (env.struct cls).fields) (obj := obj) hone n _ ⟨[], [], [], [], o, st1.ref⟩ _
            (fun f hf => hf) hown hl k v hk with
            hk' | ⟨f, hf, hn, htag, nm, tm, ha, hr⟩
          · exact Or.inl hk'
          · refine Or.inr ⟨f, hf, hn, htag, nm, tm, ha, ?_⟩
            rcases runSteps_rel (refRel env ext r) (steps_rel (refRel env ext r) (decode_rel (refRel env ext r) n)) hs nm with h3 | ⟨t, ht, h3⟩
            · exact h3.trans hr
            · rw [hone _ _ _ (auto_entry ha) ht] at h3; exact h3

/-- **C161, partial.** Together with its `ref` a specification can be used any number of times: a document of literals that a call with the specification
as it was would have decoded is decoded to the same target, whatever the documents in between were.  Missing: another `ref` (`C161_violated`), documents
that refer to variables (`C60_violated_history`), fields of different levels with one name (`C161_violated_names`). -/
theorem C161_partial {env : Env} {ext : Ext} {n cls : Nat} {body : Option Body} {target : Fields}
    {obj : List (Bytes × CVal)} {st st1 : St} {root root1 : Option Nat} {spec1 : Option (List (Bytes × CVal))} {labels : List Bytes}
    (hord : ∀ p l, (ext.ord p l).Perm l) (hdyn : DynAdds ext) (hinv : Tree.Inv st.heap)
    (hroot : ∀ r, root = some r → r < st.heap.length) (hcan : Canonical env ext st.ref) (hnames : NamesOnce env n cls)
    (hused : Used env ext n cls (some obj) st root spec1 st1 root1)
    (hlit : ∀ x, body = some x → Literal ext x) (hspec : UniSpec obj)
    (alone after : After) (halone : alone = unmarshalSpec env ext n body cls target (some obj) st root labels)
    (hafter : after = unmarshalSpec env ext n body cls target spec1 st1 root1 labels)
    (hok : alone.outcome = .ok ()) :
    after.outcome = .ok () ∧ after.target = alone.target := by
  have hone : OneNew env ext := fun k t t' ht ht' => (hcan k t ht).2 t' ht'
  obtain ⟨⟨o, rfl, hsub, hown⟩, hrs, hi, hlt⟩ := used_left hdyn hinv hroot hone hused
  subst halone hafter
  obtain ⟨h1, h2, _, _⟩ := unmarshalSpec_sim (o := ext.ord) (st' := st1) (root' := root1) hord hord hlit (fun x hx => by cases hx; exact hspec)
    (hrs.le hcan) hi hlt hok
  change (unmarshalSpec env ext n body cls target (some obj) st1 root1 labels).outcome = .ok () at h1
  change (unmarshalSpec env ext n body cls target (some obj) st1 root1 labels).target = _ at h2
  rw [← h2]
  clear h2 hok
  cases body with
  | none => cases h1
  | some body =>
    generalize hd : defaultTree st1.heap root1 = d
    obtain ⟨h, r⟩ := d
    simp only [unmarshalSpec, hd] at h1 ⊢
    cases hrun : decode env ext r (n + 1) [] ⟨h, st1.ref⟩ r cls target ((some obj).getD []) labels body with
    | mk fs out =>
      rw [hrun] at h1
      cases out with
      | error e => cases h1
      | ok st2 =>
        have := decode_twin (st := ⟨h, st1.ref⟩) hone hnames hsub hown (by simpa only [Option.getD_some] using hrun)
        simp only [Option.getD_some, this]
        exact ⟨trivial, trivial⟩

theorem Demo.namesOnce : NamesOnce Demo.env 1 0 := by
  intro f hf g hg h
  have e : whole Demo.env 1 (Demo.env.struct 0).fields = [Demo.fName, Demo.fAlt, Demo.fItems, Demo.fTable, Demo.fPairs, Demo.fOne] := rfl
  rw [e] at hf hg
  simp only [List.mem_cons, List.not_mem_nil, or_false] at hf hg
  rcases hf with rfl | rfl | rfl | rfl | rfl | rfl <;> rcases hg with rfl | rfl | rfl | rfl | rfl | rfl <;>
    first | rfl | exact absurd h (by decide +kernel)

-- Two calls before, with blocks for a field that the specification does not name; all the hypotheses hold.
example :
    let first := Demo.call (some []) ⟨Demo.heap0, Demo.ref0⟩ (some 0) (.mk [] [(b "items", [b "a"], Demo.leaf "1")])
    let second := Demo.call first.spec ⟨first.heap, first.ref⟩ (some first.root) (.mk [Demo.str "alt" "v"] [])
    let doc := Body.mk [] [(b "one", [b "a"], Demo.leaf "1")]
    Used Demo.env Demo.ext 1 0 (some []) ⟨Demo.heap0, Demo.ref0⟩ (some 0) second.spec ⟨second.heap, second.ref⟩ (some second.root) ∧
    Canonical Demo.env Demo.ext Demo.ref0 ∧ DynAdds Demo.ext ∧ Tree.Inv Demo.heap0 ∧ NamesOnce Demo.env 1 0 ∧ Literal Demo.ext doc ∧
    (Demo.call (some []) ⟨Demo.heap0, Demo.ref0⟩ (some 0) doc).outcome = .ok () ∧
    GoMap.get? (Demo.call second.spec ⟨second.heap, second.ref⟩ (some second.root) doc).target (b "One") =
      some (.ref 1 [(b "Id", .str (b "a")), (b "Val", .str (b "1"))]) :=
  ⟨.call _ _ _ (.call _ _ _ .start rfl rfl) rfl rfl, Demo.canonical, Demo.dynAdds, Demo.heap0_inv, Demo.namesOnce,
    Demo.literal_str (ks := []) (fun x hx => by
      simp only [List.mem_cons, List.not_mem_nil, or_false] at hx
      rcases hx with rfl; exact Demo.literal_leaf _), rfl, rfl⟩

end Verif.HclS
