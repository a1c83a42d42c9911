import Verif.Props.HclStructAgain
import Verif.Lemmas.HclStructMem
/-!
# C164: what decoding leaves in nested specifications
-/
namespace Verif.HclS
open Tree (Heap)
open Hcl (Cty)
open Det (Cls CVal)

variable {env : Env} {ext : Ext}

/-- **C164**: whatever `UnmarshalSpec` does with nested specifications that nobody changes, it does the same, to the target, `ref` and its tree, when every call finds
in memory what other calls may have added; a document that fails leaves the same target and the same error.  Types of one name must have one new value (`OneNew`)
and fields of different levels must not share names (`NamesOnce`). -/
theorem C164_partial {mem : SpecMem} {n cls : Nat} {body : Option Body} {target : Fields} {spec : Option (List (Bytes × CVal))} {st : St} {root : Option Nat}
    {labels : List Bytes} (hone : OneNew env ext) (hnames : ∀ c, NamesOnce env n c) (hmem : Honest env ext n mem)
    (a : After) (ha : a = unmarshalSpec env ext n body cls target spec st root labels) :
    unmarshalMem env ext mem n body cls target spec st root labels = (a.target, a.outcome.map fun _ => ⟨a.heap, a.ref⟩) := by
  subst ha
  cases body with
  | none => rfl
  | some body =>
    generalize hd : defaultTree st.heap root = d
    obtain ⟨h, r⟩ := d
    simp only [unmarshalSpec, unmarshalMem, hd]
    rw [decodeMem_same hone hnames hmem (n + 1) (Nat.le_refl _)]
    cases hrun : decode env ext r (n + 1) [] ⟨h, st.ref⟩ r cls target (spec.getD []) labels body with
    | mk fs out => cases out <;> rfl

/-- The specification that was used before, at all levels: `C161_partial` with the memory of nested specifications. -/
theorem C164_again {mem : SpecMem} {n cls : Nat} {body : Option Body} {target : Fields}
    {obj : List (Bytes × CVal)} {st st1 : St} {root root1 : Option Nat} {spec1 : Option (List (Bytes × CVal))} {labels : List Bytes}
    (hord : ∀ p l, (ext.ord p l).Perm l) (hdyn : DynAdds ext) (hinv : Tree.Inv st.heap)
    (hroot : ∀ r, root = some r → r < st.heap.length) (hcan : Canonical env ext st.ref) (hnames : ∀ c, NamesOnce env n c)
    (hused : Used env ext n cls (some obj) st root spec1 st1 root1)
    (hlit : ∀ x, body = some x → Literal ext x) (hspec : UniSpec obj) (hmem : Honest env ext n mem)
    (alone : After) (halone : alone = unmarshalSpec env ext n body cls target (some obj) st root labels) (hok : alone.outcome = .ok ()) :
    ∃ st2, unmarshalMem env ext mem n body cls target spec1 st1 root1 labels = (alone.target, .ok st2) := by
  obtain ⟨h1, h2⟩ := C161_partial hord hdyn hinv hroot hcan (hnames cls) hused hlit hspec alone _ halone rfl hok
  have h := C164_partial (fun k t t' ht ht' => (hcan k t ht).2 t' ht') hnames hmem _ (rfl : _ = unmarshalSpec env ext n body cls target spec1 st1 root1 labels)
  rw [h1, h2] at h
  exact ⟨_, h⟩

/-- A specification that has such entries at all levels (`DeepFilled`), as if calls before had left them, decodes what the specification without them decodes, to the same
target. -/
theorem C164_written {n cls : Nat} {body : Option Body} {target : Fields} {obj obj' : List (Bytes × CVal)} {st : St} {root : Option Nat}
    {labels : List Bytes} (hone : OneNew env ext) (hnames : ∀ c, NamesOnce env n c) (hfill : DeepFilled env ext n st.ref n cls obj obj')
    (a a' : After) (ha : a = unmarshalSpec env ext n body cls target (some obj) st root labels)
    (ha' : a' = unmarshalSpec env ext n body cls target (some obj') st root labels) (hok : a.outcome = .ok ()) :
    a'.outcome = .ok () ∧ a'.target = a.target ∧ a'.ref = a.ref ∧ a'.heap = a.heap := by
  subst ha ha'
  cases body with
  | none => cases hok
  | some body =>
    generalize hd : defaultTree st.heap root = d
    obtain ⟨h, r⟩ := d
    simp only [unmarshalSpec, hd] at hok ⊢
    simp only [Option.getD_some] at hok ⊢
    cases hrun : decode env ext r (n + 1) [] ⟨h, st.ref⟩ r cls target obj labels body with
    | mk fs out =>
      rw [hrun] at hok
      cases out with
      | error e => cases hok
      | ok st2 =>
        rw [decode_deep (ref0 := st.ref) (st := ⟨h, st.ref⟩) hone hnames n (Nat.le_refl _) (RefStep.refl _ _ _) hfill hrun]
        exact ⟨rfl, rfl, rfl, rfl⟩

theorem Holds1.later {N cls : Nat} {ref ref' : GoMap Bytes Tmpl} {obj found : List (Bytes × CVal)} (hone : OneNew env ext)
    (h : Holds1 env ext N cls ref obj found) (hs : RefStep env ext ref ref') : Holds1 env ext N cls ref' obj found := by
  refine ⟨h.1, fun k v hk => (h.2 k v hk).imp_right ?_⟩
  rintro ⟨f, hf, hn, htag, nm, tm, ha, hr⟩
  refine ⟨f, hf, hn, htag, nm, tm, ha, ?_⟩
  rcases hs nm with h3 | ⟨t, ht, h3⟩
  · exact h3.trans hr
  · rw [hone _ _ _ (auto_entry ha) ht] at h3; exact h3

theorem decodeMem_rel {mem : SpecMem} {root : Nat} : ∀ n, RecRel (fun st st' => RefStep env ext st.ref st'.ref) (decodeMem env ext mem root n)
  | 0 => by intro path st node c fs obj labels body out st1 h; cases h
  | n + 1 => by
    intro path st node c fs obj labels body out st1 h
    simp only [decodeMem, decodeStruct] at h
    cases hp : prepare env ext n root st node c (mem path st c obj) path body with
    | error e => rw [hp] at h; cases h
    | ok p =>
      rw [hp] at h
      exact (refRel env ext root).trans _ _ _ ((refRel env ext root).prep _ _ _ _ _ _ _ _ hp)
        (runSteps_rel (refRel env ext root) (steps_rel (refRel env ext root) (decodeMem_rel n)) h)

/-- That the memory is `Honest` is kept by the code: a call that finds such a field map leaves one (`lf.obj`, which it has written to), and it is one for as long
as `ref` is only changed by such calls. -/
theorem C164_left {mem : SpecMem} {root n N : Nat} {path : List Bytes} {st : St} {node cls : Nat} {fs : Fields} {obj : List (Bytes × CVal)} {labels : List Bytes}
    {body : Body} {fs' : Fields} {st' : St} (hone : OneNew env ext) (hN : n ≤ N) (hfound : Holds1 env ext N cls st.ref obj (mem path st cls obj))
    (h : decodeMem env ext mem root (n + 1) path st node cls fs obj labels body = (fs', .ok st')) :
    ∃ vals lf hp, prelude env ext n root st node cls (mem path st cls obj) path body = .ok (vals, lf, hp) ∧
      ∀ ref', RefStep env ext st'.ref ref' → Holds1 env ext N cls ref' obj lf.obj := by
  simp only [decodeMem, decodeStruct] at h
  cases hp : prepare env ext n root st node cls (mem path st cls obj) path body with
  | error e => rw [hp] at h; cases h
  | ok p =>
    rw [hp] at h
    dsimp only at h
    obtain ⟨h1, h2, hpre, hori, hheap, hraw⟩ := prepare_ok hp
    obtain ⟨h0, hev, hbl, hlf⟩ := prelude_ok hpre
    refine ⟨_, _, _, hpre, fun ref' hs => ?_⟩
    have hrun := runSteps_rel (refRel env ext root) (steps_rel (refRel env ext root) (decodeMem_rel n)) h
    refine Holds1.later hone ⟨fun k v hk => (loopFields_grows _ _ _ _ hlf).obj _ _ (hfound.1 k v hk), ?_⟩ (hrun.trans hs)
    exact loopFields_filled (A := whole env N (env.struct cls).fields) hone n _ ⟨[], [], [], [], mem path st cls obj, st.ref⟩ _ (whole_mono hN _) hfound.2 hlf

/-- The field map as it was made is such a field map, too. -/
theorem C164_start (N cls : Nat) (ref : GoMap Bytes Tmpl) (obj : List (Bytes × CVal)) : Holds1 env ext N cls ref obj obj :=
  ⟨fun _ _ h => h, fun _ _ h => Or.inl h⟩

namespace Demo

open Classical in
/-- Every call for a `Root` finds the entry for the field `One`, if the class that it names is known. -/
noncomputable def mem : SpecMem := fun _ st cls obj =>
  if cls = 0 ∧ GoMap.get? obj (b "One") = none ∧ GoMap.get? st.ref (b "main.Item") = some (newOf Demo.env Demo.ext (.struct 1)) then
    GoMap.set obj (b "One") (.single (.mk (b "main.Item") []))
  else obj

theorem mem_honest : Honest Demo.env Demo.ext 1 mem := by
  intro path st cls obj
  simp only [mem]
  split
  · rename_i h
    obtain ⟨rfl, hno, hr⟩ := h
    constructor
    · intro k v hk
      rw [GoMap.get?_set]
      split
      · rename_i he; subst he; rw [hno] at hk; cases hk
      · exact hk
    · intro k v hk
      rw [GoMap.get?_set] at hk
      split at hk
      · rename_i he
        subst he
        cases hk
        exact Or.inr ⟨fOne, by
          have e : whole Demo.env 1 (Demo.env.struct 0).fields = [Demo.fName, Demo.fAlt, Demo.fItems, Demo.fTable, Demo.fPairs, Demo.fOne] := rfl
          rw [e]; simp, rfl, by decide +kernel, _, _, rfl, hr⟩
      · exact Or.inl hk
  · exact C164_start _ _ _ _

theorem namesOnce_all (c : Nat) : NamesOnce Demo.env 1 c := by
  have key : ∀ l : List Fld, (l.map Fld.name).Nodup → ∀ f ∈ l, ∀ g ∈ l, f.name = g.name → f = g := by
    intro l
    induction l with
    | nil => intro _ f hf; cases hf
    | cons x l ih =>
      intro hn f hf g hg he
      simp only [List.map_cons, List.nodup_cons] at hn
      rcases List.mem_cons.1 hf with hx | hf' <;> rcases List.mem_cons.1 hg with hy | hg'
      · rw [hx, hy]
      · exact absurd (List.mem_map.2 ⟨g, hg', by rw [← he, hx]⟩) hn.1
      · exact absurd (List.mem_map.2 ⟨f, hf', by rw [he, hy]⟩) hn.1
      · exact ih hn.2 f hf' g hg' he
  refine key _ ?_
  rcases c with _ | _ | _ | _ | _ | n
  · decide +kernel
  · decide +kernel
  · decide +kernel
  · decide +kernel
  · decide +kernel
  · exact List.nodup_nil

end Demo

-- All the hypotheses hold: a document with blocks for `One`, and a memory that holds its entry.
example :
    let doc := Body.mk [] [(b "items", [b "a"], Demo.leaf "1"), (b "one", [b "c"], Demo.leaf "2")]
    let a := unmarshalSpec Demo.env Demo.ext 1 (some doc) 0 Demo.blank (some []) ⟨Demo.heap0, Demo.ref0⟩ (some 0) []
    OneNew Demo.env Demo.ext ∧ Honest Demo.env Demo.ext 1 Demo.mem ∧ a.outcome = .ok () ∧
    GoMap.get? a.target (b "One") = some (.ref 1 [(b "Id", .str (b "c")), (b "Val", .str (b "2"))]) :=
  ⟨fun k t t' ht ht' => (Demo.canonical k t ht).2 t' ht', Demo.mem_honest, rfl, rfl⟩

-- A document that fails after a field was stored.
example :
    let doc := Body.mk [] [(b "items", [b "a"], Demo.leaf "1"), (b "one", [b "c"], .mk [] [(b "nothing", [], .mk [] [])])]
    let a := unmarshalSpec Demo.env Demo.ext 1 (some doc) 0 Demo.blank (some []) ⟨Demo.heap0, Demo.ref0⟩ (some 0) []
    a.outcome = .error .err ∧ GoMap.get? Demo.blank (b "Items") = some (.leaf 0) ∧
    GoMap.get? a.target (b "Items") = some (.slice [.ref 1 [(b "Id", .str (b "a")), (b "Val", .str (b "1"))]]) :=
  ⟨rfl, rfl, rfl⟩

-- A specification with the entry for `One` in it, and a `ref` that has its class.
example : DeepFilled Demo.env Demo.ext 1 [(b "main.Item", newOf Demo.env Demo.ext (.struct 1))] 1 0 [] [(b "One", .single (.mk (b "main.Item") []))] := by
  unfold DeepFilled FilledIn
  refine ⟨fun k v hk => (by cases hk), fun k v hk => Or.inr ?_⟩
  rintro c rfl
  simp only [GoMap.get?] at hk
  split at hk
  · rename_i he
    cases hk
    subst he
    refine ⟨Demo.fOne, ?_, rfl, by decide +kernel, _, _, rfl, rfl⟩
    have e : whole Demo.env 1 (Demo.env.struct 0).fields = [Demo.fName, Demo.fAlt, Demo.fItems, Demo.fTable, Demo.fPairs, Demo.fOne] := rfl
    rw [e]; simp
  · cases hk

end Verif.HclS
