import Verif.Props.HclStruct
/-!
# Default classes of two-label maps

C167. In a specification for a `map[[2]string]T`, a block whose first label is listed gets a class that is listed with that label. dethcl/unmarshal.go L236-L264 takes
one default class for all blocks, from whichever first label the iteration over the specification meets first, so this fails: `C167_violated`. `C167_classes` says which
class every block gets, `C167_partial` keeps the claim for specifications with a single first label.
-/
namespace Verif.HclS
open Tree (Heap)
open Hcl (Cty)
open Det (Cls CVal KeyTy)

variable {env : Env} {ext : Ext} {root n node cls : Nat} {path : List Bytes} {st st' : St} {fs fs' : Fields} {obj : List (Bytes × CVal)} {labels : List Bytes}
  {body : Body} {f : Fld}

/-- Which class a block gets in a `map[[2]string]T`, given the first label `k0` that iteration finds and the default `d`; missing labels count as empty. -/
inductive PairClass (cm : List (Bytes × List (Bytes × Cls))) (k0 : Bytes) (d : Option Cls) (k1 k2 : Bytes) : Cls → Prop where
  /-- The pair is listed. -/
  | listed {inner cl} : GoMap.get? cm k1 = some inner → GoMap.get? inner k2 = some cl → PairClass cm k0 d k1 k2 cl
  /-- The first label is listed, but not with the second. -/
  | second {inner cl} : GoMap.get? cm k1 = some inner → GoMap.get? inner k2 = none → d = some cl → PairClass cm k0 d k1 k2 cl
  /-- The first label is not listed: that of the iteration stands in. -/
  | first {inner cl} : GoMap.get? cm k1 = none → GoMap.get? cm k0 = some inner → GoMap.get? inner k2 = some cl → PairClass cm k0 d k1 k2 cl
  | neither {inner cl} : GoMap.get? cm k1 = none → GoMap.get? cm k0 = some inner → GoMap.get? inner k2 = none → d = some cl → PairClass cm k0 d k1 k2 cl

/-- What happens: in every call there is one first label `k0` of the specification, and one class `d` listed with it (if there are any), such that every block gets the
class that `PairClass` says. -/
theorem C167_classes {kt : KeyTy} {ety : Ty} {cm : List (Bytes × List (Bytes × Cls))}
    (hord : ∀ p l, (ext.ord p l).Perm l) (hd : DistinctNames env n cls)
    (hrun : decode env ext root (n + 1) path st node cls fs obj labels body = (fs', .ok st'))
    (hm : f ∈ (env.struct cls).fields) (hf : Decodes f) (hty : f.ty = .map kt ety)
    (hspec : GoMap.get? obj f.name = some (.map2 cm)) (ha : f.tag ∉ GoMap.keys body.attrs) (h0 : blocksOf body f.tag ≠ []) :
    ∃ m k0 inner0 d, GoMap.get? fs' f.name = some (.map2 m) ∧ GoMap.get? cm k0 = some inner0 ∧
      (∀ x, d = some x → ∃ k, GoMap.get? inner0 k = some x) ∧
      Entries env ext root n node st f.tag ety (fun ls cl => PairClass cm k0 d (ls.getD 0 []) (ls.getD 1 []) cl) (PairKey env) (blocksOf body f.tag) m := by
  obtain ⟨_, h2⟩ := field_final hord hd hrun hm hf hspec ha
  obtain ⟨r, st1, st2, hv, hlat, hfin⟩ := h2 h0
  simp only [oriValue, hty] at hv
  obtain ⟨⟨m, st3⟩, hl, hr⟩ := map_ok hv
  cases hr
  obtain ⟨es, rfl, hes⟩ := map2Loop_ok hl
  cases ho : (ext.ord (path ++ [f.tag]) (GoMap.keys cm)) with
  | nil =>
    exfalso
    have hempty : cm = [] := by
      have := (hord (path ++ [f.tag]) (GoMap.keys cm)).length_eq
      rw [ho] at this
      cases cm with
      | nil => rfl
      | cons e cm => simp [GoMap.keys] at this
    subst hempty
    cases hb : blocksOf body f.tag with
    | nil => exact h0 hb
    | cons x xs =>
      rw [hb] at hes
      obtain ⟨hlen, s, _, _, hx⟩ := hes
      cases es with
      | nil => simp at hlen
      | cons e es =>
        obtain ⟨_, cl, _, _, _, hcl, _⟩ := hx 0 ⟨x.1, some x.2⟩ e (by simp) (by simp)
        simp [classFor2, ho, GoMap.get?] at hcl
  | cons k0 ks =>
    have hk : k0 ∈ GoMap.keys cm := (hord (path ++ [f.tag]) _).mem_iff.1 (by rw [ho]; simp)
    cases hc : GoMap.get? cm k0 with
    | none => exact absurd hk (GoMap.get?_eq_none.1 hc)
    | some inner0 =>
      refine ⟨_, k0, inner0, firstOf (ext.ord (path ++ [f.tag, f.tag]) (GoMap.keys inner0)) inner0, hfin _ rfl, hc, ?_, entries_of hes hlat ?_ ?_⟩
      · intro x hx
        exact firstOf_mem hx
      · intro ls inner cl hok hcl
        simp only [classFor2, ho, List.head?_cons, Option.bind_some, hc, Option.getD_some] at hcl
        cases hg : GoMap.get? cm (ls.getD 0 []) with
        | some inn =>
          rw [hg] at hcl
          cases hg2 : GoMap.get? inn (ls.getD 1 []) with
          | some x => simp only [Option.getD_some, hg2, Option.some_or, Option.some.injEq] at hcl; subst hcl; exact .listed hg hg2
          | none => simp only [Option.getD_some, hg2, Option.none_or] at hcl; exact .second hg hg2 hcl
        | none =>
          rw [hg] at hcl
          cases hg2 : GoMap.get? inner0 (ls.getD 1 []) with
          | some x => simp only [Option.getD_none, hg2, Option.some_or, Option.some.injEq] at hcl; subst hcl; exact .first hg hc hg2
          | none => simp only [Option.getD_none, hg2, Option.none_or] at hcl; exact .neither hg hc hg2 hcl
      · rintro ls inner c out key - rfl
        exact map2Key_pairKey _ _ _

theorem pairClass_one {cm : List (Bytes × List (Bytes × Cls))} {k0 k1 k2 : Bytes} {d : Option Cls} {cl : Cls} {inner0 : List (Bytes × Cls)}
    (hone : cm = [(k0, inner0)]) (hd : ∀ x, d = some x → ∃ k, GoMap.get? inner0 k = some x) (h : PairClass cm k0 d k1 k2 cl) :
    (∃ k, GoMap.get? inner0 k = some cl) ∧ ∀ cl', GoMap.get? inner0 k2 = some cl' → cl = cl' := by
  subst hone
  have hin : ∀ {k inner}, GoMap.get? [(k0, inner0)] k = some inner → inner = inner0 := by
    intro k inner h
    simp only [GoMap.get?] at h
    split at h
    · cases h; rfl
    · cases h
  cases h with
  | listed h1 h2 => rw [hin h1] at h2; exact ⟨⟨_, h2⟩, fun cl' h => by rw [h2] at h; cases h; rfl⟩
  | second h1 h2 h3 => rw [hin h1] at h2; exact ⟨hd _ h3, fun cl' h => by rw [h2] at h; cases h⟩
  | first _ h1 h2 => rw [hin h1] at h2; exact ⟨⟨_, h2⟩, fun cl' h => by rw [h2] at h; cases h; rfl⟩
  | neither _ h1 h2 h3 => rw [hin h1] at h2; exact ⟨hd _ h3, fun cl' h => by rw [h2] at h; cases h⟩

/-- **C167** if the specification has one first label only: every block gets a class that is listed with it, and the one for its second label if that is listed. Missing: several
first labels, where it fails (`C167_violated`). -/
theorem C167_partial {kt : KeyTy} {ety : Ty} {k0 : Bytes} {inner0 : List (Bytes × Cls)}
    (hord : ∀ p l, (ext.ord p l).Perm l) (hd : DistinctNames env n cls)
    (hrun : decode env ext root (n + 1) path st node cls fs obj labels body = (fs', .ok st'))
    (hm : f ∈ (env.struct cls).fields) (hf : Decodes f) (hty : f.ty = .map kt ety)
    (hspec : GoMap.get? obj f.name = some (.map2 [(k0, inner0)])) (ha : f.tag ∉ GoMap.keys body.attrs) (h0 : blocksOf body f.tag ≠ []) :
    ∃ m, GoMap.get? fs' f.name = some (.map2 m) ∧
      Entries env ext root n node st f.tag ety
        (fun ls cl => (∃ k, GoMap.get? inner0 k = some cl) ∧ ∀ cl', GoMap.get? inner0 (ls.getD 1 []) = some cl' → cl = cl')
        (PairKey env) (blocksOf body f.tag) m := by
  obtain ⟨m, k, inner, d, h1, h2, h3, h4⟩ := C167_classes hord hd hrun hm hf hty hspec ha h0
  have hk : k = k0 ∧ inner = inner0 := by
    simp only [GoMap.get?] at h2
    split at h2
    · rename_i h
      cases h2
      exact ⟨by simpa using h.symm, rfl⟩
    · cases h2
  obtain ⟨rfl, rfl⟩ := hk
  obtain ⟨es, s, h5, h6, h7⟩ := h4
  refine ⟨m, h1, es, s, h5, fun k ls body' e hx he => ?_, h7⟩
  obtain ⟨cl, c, out, hc, hrest⟩ := h6 k ls body' e hx he
  exact ⟨cl, c, out, pairClass_one rfl h3 hc, hrest⟩

namespace Demo

/-- `map[[2]string]interface{}`, with classes for two first labels. -/
def pairEnv : Env where
  struct
    | 0 => ⟨b "main.Root", [fld "Pairs" "pairs,block" (.map .str2 .any)], [(b "Pairs", .map .str2 .any)]⟩
    | n + 1 => Demo.env.struct (n + 1)
  impl _ _ := true
  name _ := b "?"

def pairSpec : List (Bytes × CVal) :=
  [(b "Pairs", .map2 [(b "x", [(b "p", .mk (b "Other") [])]), (b "y", [(b "q", .mk (b "Item") [])])])]

/-- One block `pairs "y" "z"`, with the map read in an order. -/
def pairRun (ord : List Bytes → List Bytes) : Fields × Except Fail St :=
  decode pairEnv { Demo.ext with ord := fun _ l => ord l } 0 2 [] ⟨Demo.heap0, Demo.ref0⟩ 0 0 [(b "Pairs", .leaf 0)] pairSpec []
    (.mk [] [(b "pairs", [b "y", b "z"], leaf "1")])

/-- The one field of `pairEnv`. -/
def fPair : Fld := fld "Pairs" "pairs,block" (.map .str2 .any)

/-- With the first label `x` only. -/
def pairSpec1 : List (Bytes × CVal) := [(b "Pairs", .map2 [(b "x", [(b "p", .mk (b "Other") []), (b "r", .mk (b "Item") [])])])]

def pairDoc : Body := .mk [] [(b "pairs", [b "y", b "z"], leaf "1"), (b "pairs", [b "x", b "r"], leaf "2")]

end Demo

-- The hypotheses of `C167_classes` and `C167_partial` hold for a document with a pair that is listed and one that is not.
example : ∃ fs st, decode Demo.pairEnv Demo.ext 0 2 [] ⟨Demo.heap0, Demo.ref0⟩ 0 0 [(b "Pairs", .leaf 0)] Demo.pairSpec1 [] Demo.pairDoc = (fs, .ok st) ∧
    DistinctNames Demo.pairEnv 1 0 ∧ Demo.fPair ∈ (Demo.pairEnv.struct 0).fields ∧ Decodes Demo.fPair ∧ blocksOf Demo.pairDoc Demo.fPair.tag ≠ [] ∧
    Demo.fPair.tag ∉ GoMap.keys Demo.pairDoc.attrs ∧
    GoMap.get? fs (b "Pairs") = some (.map2 [((b "x", b "r"), .ref 1 [(b "Id", .str []), (b "Val", .str (b "2"))]),
      ((b "y", b "z"), .ref 2 [(b "Val", .str (b "1"))])]) :=
  ⟨_, _, rfl, (by unfold DistinctNames; decide +kernel), List.mem_cons_self .., ⟨(by decide +kernel), (by decide +kernel), (by decide +kernel), (by decide +kernel)⟩, (by decide +kernel), (by decide +kernel), rfl⟩

/-- **C167 is violated**: the first label `y` is listed, with the class `Item` only, but the block `pairs "y" "z"` is decoded as the class `Other`, which is listed for another
first label; in another iteration order of the specification it is an `Item`. -/
theorem C167_violated :
    GoMap.get? (Demo.pairRun id).1 (b "Pairs") = some (.map2 [((b "y", b "z"), .ref 2 [(b "Val", .str (b "1"))])]) ∧
    GoMap.get? (Demo.pairRun List.reverse).1 (b "Pairs") =
      some (.map2 [((b "y", b "z"), .ref 1 [(b "Id", .str []), (b "Val", .str (b "1"))])]) := ⟨rfl, rfl⟩

end Verif.HclS
