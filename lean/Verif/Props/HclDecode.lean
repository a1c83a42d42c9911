import Verif.Lemmas.Cty
import Verif.Lemmas.HclDecode
import Verif.Lemmas.HclEq
set_option linter.unusedSimpArgs false
/-! `Unmarshal` of HCL text into a map (C49–C51). -/
namespace Verif.Hcl

variable {ext : Ext}

/-- External code for the examples: no normalisation, no variables or functions, sorted or reversed
orders. -/
def exExt : Ext := { nfc := id, eval := fun _ => .err, ord := fun _ ks => ks }
def exExtR : Ext := { nfc := id, eval := fun _ => .err, ord := fun _ ks => ks.reverse }

/-- An example body:
```
a = 1
b = [true, {c = "d"}]
e { f = 2 }
e { f = 3 }
g "h" { i = 4 }
g "k" { }
l "m" "n" { o = 5 }
```
-/
def exBody : Body :=
  .mk [(b "a", .num 1), (b "b", .tuple [.ident (b "true"), .object [(.ident (b "c"), .str (b "d"))]])]
    [(b "e", [], .mk [(b "f", .num 2)] []), (b "e", [], .mk [(b "f", .num 3)] []),
     (b "g", [b "h"], .mk [(b "i", .num 4)] []), (b "g", [b "k"], .mk [] []),
     (b "l", [b "m", b "n"], .mk [(b "o", .num 5)] [])]

def exRes : List (Bytes × GV) :=
  [(b "a", .int 1), (b "b", .list [.bool true, .map [(b "c", .str (b "d"))]]),
   (b "e", .list [.map [(b "f", .int 2)], .map [(b "f", .int 3)]]),
   (b "g", .map [(b "h", .map [(b "i", .int 4)]), (b "k", .map [])]),
   (b "l", .map [(b "m", .map [(b "n", .map [(b "o", .int 5)])])])]

example : decodeBody exExt [] exBody = .ok exRes := by decide +kernel
example : decodeBody exExtR [] exBody = .ok exRes := by decide +kernel
example : ∀ p ks, (exExtR.ord p ks).Perm ks := fun _ _ => List.reverse_perm _

/-- C51: decoding a body gives the same map, or fails, whatever the orders in which the maps are visited. -/
theorem C51_body (body : Body) (ord' : List Bytes → List Bytes → List Bytes)
    (ho : ∀ p ks, (ext.ord p ks).Perm ks) (ho' : ∀ p ks, (ord' p ks).Perm ks) (path path' : List Bytes)
    (m : List (Bytes × GV)) :
    decodeBody ext path body = .ok m ↔ decodeBody { ext with ord := ord' } path' body = .ok m := by
  rw [← Out.opt_some, ← Out.opt_some, decodeBody_opt ho ho' body path path']

/-- C51: the same for the whole of `Unmarshal` of a text into a map. -/
theorem C51_unmarshal (text : Bytes) (target : List (Bytes × GV)) (ord' : List Bytes → List Bytes → List Bytes)
    (ho : ∀ p ks, (ext.ord p ks).Perm ks) (ho' : ∀ p ks, (ord' p ks).Perm ks) (m : List (Bytes × GV)) :
    unmarshalMap ext text target = .ok m ↔ unmarshalMap { ext with ord := ord' } text target = .ok m := by
  rw [← Out.opt_some, ← Out.opt_some]
  have : (unmarshalMap ext text target).opt = (unmarshalMap { ext with ord := ord' } text target).opt := by
    unfold unmarshalMap
    refine Out.opt_map ?_
    unfold decodeMap
    split
    · rfl
    · split
      · refine Out.opt_bind rfl fun e _ => ?_
        cases e with
        | object m => exact congrArg Out.opt (nativeO_ord ext ord' m []).symm
        | _ => rfl
      · exact Out.opt_bind rfl fun body _ => decodeBody_opt ho ho' body _ _
  rw [this]

/-- C50: the keys of the decoded map are the names of the attributes and the types of the blocks; the
blocks have at most two labels. -/
theorem C50_keys (ho : ∀ p ks, (ext.ord p ks).Perm ks) {path : List Bytes} {attrs : List (Bytes × Expr)}
    {blocks : List (Bytes × List Bytes × Body)} {m : List (Bytes × GV)}
    (h : decodeBody ext path (.mk attrs blocks) = .ok m) :
    (∀ k, k ∈ m.map Prod.fst ↔ k ∈ attrs.map Prod.fst ∨ k ∈ blocks.map Prod.fst) ∧
    (m.map Prod.fst).Nodup ∧ ∀ x ∈ blocks, x.2.1.length ≤ 2 := by
  simp only [decodeBody, Out.bind_ok] at h
  obtain ⟨obj, h1, h2⟩ := h
  obtain ⟨a1, c1, s1⟩ := assignAll_ok _ h1
  simp only [(ho _ _).mem_iff] at a1 c1
  obtain ⟨hl, hk⟩ := decodeBlocks_ok ho h2
  have hl' : ∀ x ∈ blocks, x.2.1.length ≤ 2 := fun x hx => by
    apply Classical.byContradiction; intro hc
    obtain ⟨y, hy, hp⟩ := (exists_blockResults ext blocks path 0 (fun _ ls => ¬ ls.length ≤ 2)).2 ⟨x, hx, hc⟩
    exact hp (hl y hy)
  have ht : ∀ n k, k ∈ typesOf (blockResults ext path 0 blocks) n ↔ ∃ x ∈ blocks, x.1 = k ∧ x.2.1.length = n :=
    fun n k => by rw [mem_typesOf]; exact exists_blockResults ext blocks path 0 (fun t ls => t = k ∧ ls.length = n)
  refine ⟨fun k => ?_, ?_, hl'⟩
  · change k ∈ GoMap.keys m ↔ k ∈ GoMap.keys attrs ∨ _
    rw [← GoMap.get?_isSome]
    have hb : k ∈ blocks.map Prod.fst ↔ k ∈ typesOf (blockResults ext path 0 blocks) 2 ∨
        k ∈ typesOf (blockResults ext path 0 blocks) 1 ∨ k ∈ typesOf (blockResults ext path 0 blocks) 0 := by
      rw [ht, ht, ht, List.mem_map]
      constructor
      · rintro ⟨x, hx, rfl⟩
        have := hl' x hx
        rcases (by omega : x.2.1.length = 2 ∨ x.2.1.length = 1 ∨ x.2.1.length = 0) with e | e | e
        · exact Or.inl ⟨x, hx, rfl, e⟩
        · exact Or.inr (Or.inl ⟨x, hx, rfl, e⟩)
        · exact Or.inr (Or.inr ⟨x, hx, rfl, e⟩)
      · rintro (⟨x, hx, e, -⟩ | ⟨x, hx, e, -⟩ | ⟨x, hx, e, -⟩) <;> exact ⟨x, hx, e⟩
    obtain ⟨k2, k1, k0, ka⟩ := hk k
    rw [hb]
    by_cases n2 : k ∈ typesOf (blockResults ext path 0 blocks) 2
    · obtain ⟨v, -, g⟩ := k2 n2
      simp [g, n2]
    · by_cases n1 : k ∈ typesOf (blockResults ext path 0 blocks) 1
      · obtain ⟨v, -, g⟩ := k1 n2 n1
        simp [g, n1]
      · by_cases n0 : k ∈ typesOf (blockResults ext path 0 blocks) 0
        · obtain ⟨v, -, g⟩ := k0 n2 n1 n0
          simp [g, n0]
        · rw [ka n2 n1 n0]
          simp only [n2, n1, n0, or_false]
          constructor
          · intro hs
            apply Classical.byContradiction; intro hc
            rw [a1 k hc] at hs; simp [GoMap.get?] at hs
          · intro hc
            obtain ⟨v, -, g⟩ := c1 k hc
            simp [g]
  · refine SortedK.nodup ?_
    unfold decodeBlocks at h2
    split at h2
    · cases h2
    · simp only [Out.bind_ok] at h2
      obtain ⟨o1, g1, o2, g2, g3⟩ := h2
      exact (assignAll_ok _ g3).2.2 ((assignAll_ok _ g2).2.2 ((assignAll_ok _ g1).2.2 (s1 .nil)))

/-- C50 for attributes: an attribute whose name is not the type of a block has its value. -/
theorem C50_attr (ho : ∀ p ks, (ext.ord p ks).Perm ks) {path : List Bytes} {attrs : List (Bytes × Expr)}
    {blocks : List (Bytes × List Bytes × Body)} {m : List (Bytes × GV)}
    (h : decodeBody ext path (.mk attrs blocks) = .ok m) {k : Bytes} {e : Expr}
    (hn : (attrs.map Prod.fst).Nodup) (ha : (k, e) ∈ attrs) (hb : k ∉ blocks.map Prod.fst) :
    ∃ v, nativeE ext e = .ok v ∧ GoMap.get? m k = some v := by
  simp only [decodeBody, Out.bind_ok] at h
  obtain ⟨obj, h1, h2⟩ := h
  obtain ⟨a1, c1, s1⟩ := assignAll_ok _ h1
  simp only [(ho _ _).mem_iff] at a1 c1
  obtain ⟨hl, hk⟩ := decodeBlocks_ok ho h2
  have ht : ∀ n, k ∉ typesOf (blockResults ext path 0 blocks) n := fun n hc => by
    rw [mem_typesOf] at hc
    obtain ⟨x, hx, e, -⟩ := (exists_blockResults ext blocks path 0 (fun t ls => t = k ∧ ls.length = n)).1 hc
    exact hb (List.mem_map.2 ⟨x, hx, e⟩)
  obtain ⟨v, hv, g⟩ := c1 k (List.mem_map.2 ⟨_, ha, rfl⟩)
  refine ⟨v, ?_, by rw [(hk k).2.2.2 (ht 2) (ht 1) (ht 0), g]⟩
  unfold attrVal at hv
  rw [GoMap.mem_get? hn ha] at hv
  exact hv

/-- C50 for blocks without labels: if all blocks of a type have no label, the entry for the type is the
map of the block, or the list of the maps of the blocks in order. -/
theorem C50_unlabelled (ho : ∀ p ks, (ext.ord p ks).Perm ks) {path : List Bytes} {attrs : List (Bytes × Expr)}
    {blocks : List (Bytes × List Bytes × Body)} {m : List (Bytes × GV)}
    (h : decodeBody ext path (.mk attrs blocks) = .ok m) {k : Bytes}
    (hk : k ∈ blocks.map Prod.fst) (hz : ∀ x ∈ blocks, x.1 = k → x.2.1 = []) :
    ∃ ms, List.Forall₂ (fun x mi => decodeBody ext [] x.2.2 = .ok mi) (blocks.filter fun x => x.1 = k) ms ∧
      ((∃ mi, ms = [mi] ∧ GoMap.get? m k = some (.map mi)) ∨
        (2 ≤ ms.length ∧ GoMap.get? m k = some (.list (ms.map .map)))) := by
  simp only [decodeBody, Out.bind_ok] at h
  obtain ⟨obj, h1, h2⟩ := h
  obtain ⟨hl, hkk⟩ := decodeBlocks_ok ho h2
  have ht : ∀ n, k ∈ typesOf (blockResults ext path 0 blocks) n ↔ n = 0 := fun n => by
    rw [mem_typesOf, exists_blockResults ext blocks path 0 (fun t ls => t = k ∧ ls.length = n)]
    constructor
    · rintro ⟨x, hx, e, e'⟩; rw [hz x hx e] at e'; simpa using e'.symm
    · rintro rfl
      obtain ⟨x, hx, e⟩ := List.mem_map.1 hk
      exact ⟨x, hx, e, by rw [hz x hx e]; rfl⟩
  obtain ⟨v, hv, g⟩ := (hkk k).2.2.1 (by simp [ht]) (by simp [ht]) (by simp [ht])
  simp only [zeroVal, Out.map_ok] at hv
  obtain ⟨vs, hvs, rfl⟩ := hv
  rw [seqOut_ok] at hvs
  have key : ∀ (bs : List (Bytes × List Bytes × Body)) (rs : Blocks) (vs : List GV),
      List.Forall₂ (fun x y => y.1 = x.1 ∧ y.2.1 = x.2.1 ∧
        y.2.2.opt = ((decodeBody ext [] x.2.2).map GV.map).opt) bs rs →
      (∀ x ∈ bs, x.1 = k → x.2.1 = []) →
      List.Forall₂ (fun x v => x = .ok v) (zeros rs k) vs →
      ∃ ms, List.Forall₂ (fun x mi => decodeBody ext [] x.2.2 = .ok mi) (bs.filter fun x => x.1 = k) ms ∧
        vs = ms.map .map := by
    intro bs rs vs hf
    induction hf generalizing vs with
    | nil => intro _ h; simp only [zeros, List.filter_nil, List.map_nil, List.forall₂_nil_left_iff] at h
             exact ⟨[], by simp, by simp [h]⟩
    | @cons x y bs rs hxy _ ih =>
      intro hz h
      by_cases hx : x.1 = k
      · have hy : y.2.1 = [] := by rw [hxy.2.1]; exact hz x (by simp) hx
        simp only [zeros, List.filter_cons, hxy.1, hx, hy, decide_true, List.length_nil, Bool.and_self, if_true,
          List.map_cons, List.forall₂_cons_left_iff] at h
        obtain ⟨v, vs', hv, hvs, rfl⟩ := h
        obtain ⟨ms, g1, g2⟩ := ih vs' (fun z hz' => hz z (by simp [hz'])) hvs
        have := hxy.2.2
        rw [hv] at this
        have := Out.opt_some.1 this.symm
        rw [Out.map_ok] at this
        obtain ⟨mi, e1, e2⟩ := this
        refine ⟨mi :: ms, ?_, by simp [g2, e2]⟩
        simp only [List.filter_cons, hx, decide_true, if_true]
        exact .cons e1 g1
      · simp only [zeros, List.filter_cons, hxy.1, hx, decide_false, Bool.false_and, Bool.false_eq_true, if_false] at h
        obtain ⟨ms, g1, g2⟩ := ih vs (fun z hz' => hz z (by simp [hz'])) h
        refine ⟨ms, ?_, g2⟩
        simp only [List.filter_cons, hx, decide_false, Bool.false_eq_true, if_false]
        exact g1
  obtain ⟨ms, hms, rfl⟩ := key blocks _ vs (blockResults_eq ho blocks path 0) hz hvs
  refine ⟨ms, hms, ?_⟩
  have hlen := hms.length_eq
  match ms, hlen, g with
  | [], hlen, _ =>
    exfalso
    obtain ⟨x, hx, e⟩ := List.mem_map.1 hk
    have : x ∈ blocks.filter fun x => x.1 = k := by simp [hx, e]
    rw [List.length_nil, List.length_eq_zero_iff] at hlen
    rw [hlen] at this; simp at this
  | [mi], _, g => exact Or.inl ⟨mi, rfl, g⟩
  | m1 :: m2 :: ms, _, g => exact Or.inr ⟨by simp, g⟩

/-- C50 for labelled blocks: the last block with its type and labels is found by following its type and
its labels. With one label, provided no block of the same type has two. What is missing: a block of the
same type with another number of labels (see `C50_violated`). -/
theorem C50_labelled_partial (ho : ∀ p ks, (ext.ord p ks).Perm ks) {path : List Bytes} {attrs : List (Bytes × Expr)}
    {pre post : List (Bytes × List Bytes × Body)} {m : List (Bytes × GV)} {k : Bytes} {ls : List Bytes} {inner : Body}
    (h : decodeBody ext path (.mk attrs (pre ++ (k, ls, inner) :: post)) = .ok m) (hls : ls ≠ [])
    (hpost : ∀ x ∈ post, x.1 = k → x.2.1 ≠ ls)
    (hsame : ls.length = 1 → ∀ x ∈ pre ++ post, x.1 = k → x.2.1.length ≠ 2) :
    ∃ mi, decodeBody ext [] inner = .ok mi ∧ GV.reach (.map m) (k :: ls) = some (.map mi) := by
  simp only [decodeBody, Out.bind_ok] at h
  obtain ⟨obj, h1, h2⟩ := h
  obtain ⟨hl, hkk⟩ := decodeBlocks_ok ho h2
  have ht : ∀ n, k ∈ typesOf (blockResults ext path 0 (pre ++ (k, ls, inner) :: post)) n ↔
      n = ls.length ∨ ∃ x ∈ pre ++ post, x.1 = k ∧ x.2.1.length = n := fun n => by
    rw [mem_typesOf, exists_blockResults ext _ path 0 (fun t ls => t = k ∧ ls.length = n)]
    simp only [List.mem_append, List.mem_cons]
    constructor
    · rintro ⟨x, hx | rfl | hx, e⟩
      · exact Or.inr ⟨x, Or.inl hx, e⟩
      · exact Or.inl e.2.symm
      · exact Or.inr ⟨x, Or.inr hx, e⟩
    · rintro (rfl | ⟨x, hx | hx, e⟩)
      · exact ⟨(k, ls, inner), Or.inr (Or.inl rfl), rfl, rfl⟩
      · exact ⟨x, Or.inl hx, e⟩
      · exact ⟨x, Or.inr (Or.inr hx), e⟩
  have hp : ∀ i x, x ∈ blockResults ext path i post → x.1 = k → x.2.1 ≠ ls := fun i x hx e e' => by
    obtain ⟨y, hy, e1, e2⟩ := (exists_blockResults ext post path i (fun t l => t = k ∧ l = ls)).1 ⟨x, hx, e, e'⟩
    exact hpost y hy e1 e2
  obtain ⟨v, hv, g⟩ : ∃ v, (if ls.length = 2 then
        twoVal ext (path ++ [b "2"]) (blockResults ext path 0 (pre ++ (k, ls, inner) :: post)) k
      else oneVal ext (path ++ [b "1"]) (blockResults ext path 0 (pre ++ (k, ls, inner) :: post)) k) = .ok v ∧
      GoMap.get? m k = some v := by
    by_cases h2' : ls.length = 2
    · rw [if_pos h2']
      exact (hkk k).1 ((ht 2).2 (Or.inl h2'.symm))
    · rw [if_neg h2']
      have hl1 : ls.length = 1 := by
        obtain ⟨y, hy, e⟩ := (exists_blockResults ext (pre ++ (k, ls, inner) :: post) path 0 (fun _ l => l = ls)).2
          ⟨(k, ls, inner), by simp, rfl⟩
        have := hl y hy
        rw [e] at this
        have : ls.length ≠ 0 := by simpa using hls
        omega
      refine (hkk k).2.1 ?_ ((ht 1).2 (Or.inl hl1.symm))
      rw [ht]
      rintro (e | ⟨x, hx, e1, e2⟩)
      · omega
      · exact hsame hl1 x hx e1 e2
  rw [blockResults_append] at hv
  simp only [blockResults] at hv
  have hr : ∀ {p : List Bytes} {w : GV}, (decodeBody ext p inner).map GV.map = .ok w →
      ∃ mi, decodeBody ext [] inner = .ok mi ∧ w = .map mi := by
    intro p w hw
    obtain ⟨mi, e1, e2⟩ := Out.map_ok.1 hw
    refine ⟨mi, ?_, e2.symm⟩
    rw [← Out.opt_some, decodeBody_path ho inner [] p, e1]; rfl
  have hl2 : ls.length ≤ 2 := by
    obtain ⟨y, hy, e⟩ := (exists_blockResults ext (pre ++ (k, ls, inner) :: post) path 0 (fun _ l => l = ls)).2
      ⟨(k, ls, inner), by simp, rfl⟩
    have := hl y hy
    rwa [e] at this
  match ls, hls, hl2, hv, hp, g with
  | [l], _, _, hv, hp, g =>
    rw [if_neg (by simp)] at hv
    simp only [oneVal, Out.map_ok] at hv
    obtain ⟨mm, hmm, rfl⟩ := hv
    obtain ⟨-, hc, -⟩ := assignAll_ok _ hmm
    obtain ⟨w, hw, gw⟩ := hc l (by
      rw [(ho _ _).mem_iff, mem_dedupB]
      simp [ones, List.filter_append])
    simp only [ones, List.filter_append, List.filter_cons, List.map_append] at hw
    simp only [decide_true, List.length_cons, List.length_nil, Bool.and_self, if_true, List.map_cons,
      List.headD_cons] at hw
    rw [lastO_append] at hw
    · obtain ⟨mi, e1, rfl⟩ := hr hw
      exact ⟨mi, e1, by simp [GV.reach, g, gw]⟩
    · intro x hx
      simp only [List.mem_map, List.mem_filter, Bool.and_eq_true, decide_eq_true_eq] at hx
      obtain ⟨y, ⟨hy, e1, e2⟩, rfl⟩ := hx
      intro e
      refine hp _ y hy e1 ?_
      match y.2.1, e2, e with
      | [a], _, e => simpa using e
  | [l, l'], _, _, hv, hp, g =>
    simp only [List.length_cons, List.length_nil, if_true, twoVal, Out.map_ok] at hv
    obtain ⟨mm, hmm, rfl⟩ := hv
    obtain ⟨-, hc, -⟩ := assignAll_ok _ hmm
    obtain ⟨w, hw, gw⟩ := hc l (by
      rw [(ho _ _).mem_iff, mem_dedupB]
      simp [twos, List.filter_append])
    simp only [twoVal2, Out.map_ok] at hw
    obtain ⟨mm2, hmm2, rfl⟩ := hw
    obtain ⟨-, hc2, -⟩ := assignAll_ok _ hmm2
    obtain ⟨w2, hw2, gw2⟩ := hc2 l' (by
      rw [(ho _ _).mem_iff, mem_dedupB]
      simp [twosOf, twos, List.filter_append])
    simp only [twosOf, twos, List.filter_append, List.filter_cons, List.map_append] at hw2
    simp only [decide_true, List.length_cons, List.length_nil, Bool.and_self, if_true, List.map_cons,
      List.headD_cons, List.tail_cons, List.filter_append, List.filter_cons, List.map_append] at hw2
    rw [lastO_append] at hw2
    · obtain ⟨mi, e1, rfl⟩ := hr hw2
      exact ⟨mi, e1, by simp [GV.reach, g, gw, gw2]⟩
    · intro x hx
      simp only [List.mem_map, List.mem_filter, Bool.and_eq_true, decide_eq_true_eq] at hx
      obtain ⟨z, ⟨⟨y, ⟨hy, e1, e2⟩, rfl⟩, e3⟩, rfl⟩ := hx
      intro e
      refine hp _ y hy e1 ?_
      match y.2.1, e2, e, e3 with
      | [a, a'], _, e, e3 => simp_all
  | _ :: _ :: _ :: _, _, hl2, _, _, _ => exact absurd hl2 (by simp)

/-- The hypotheses are met by `g "h"` and `l "m" "n"` in the example body. -/
example : decodeBody exExt [] (.mk exBody.attrs (exBody.blocks.take 2 ++ (b "g", [b "h"], .mk [(b "i", .num 4)] []) ::
      exBody.blocks.drop 3)) = .ok exRes ∧ (∀ x ∈ exBody.blocks.drop 3, x.1 = b "g" → x.2.1 ≠ [b "h"]) ∧
    (∀ x ∈ exBody.blocks.take 2 ++ exBody.blocks.drop 3, x.1 = b "g" → x.2.1.length ≠ 2) ∧
    GV.reach (.map exRes) [b "l", b "m", b "n"] = some (.map [(b "o", .int 5)]) := by decide +kernel

/-- C50 for lists: the elements are decoded in order. -/
theorem C50_list {l : List Expr} {v : GV} (h : nativeE ext (.tuple l) = .ok v) :
    ∃ vs, List.Forall₂ (fun e w => nativeE ext e = .ok w) l vs ∧ (v = .list vs ∨ vs = [] ∧ v = .nilList) := by
  simp only [nativeE, Out.map_ok] at h
  obtain ⟨vs, h1, rfl⟩ := h
  exact ⟨vs, nativeL_ok h1, by cases vs <;> simp [mkList]⟩

example : nativeE exExt (.tuple [.str (b "a"), .tuple []]) = .ok (.list [.str (b "a"), .nilList]) := by decide +kernel

/-- C50 for objects: an entry for each member; of members with equal keys, the last one counts. -/
theorem C50_object {m : List (Expr × Expr)} {v : GV} (h : nativeE ext (.object m) = .ok v) :
    ∃ obj kvs, v = .map obj ∧
      List.Forall₂ (fun x kv => KeyName ext x.1 kv.1 ∧ nativeE ext x.2 = .ok kv.2) m kvs ∧
      ∀ k, GoMap.get? obj k = lastVal kvs k := by
  simp only [nativeE, Out.map_ok] at h
  obtain ⟨obj, h1, rfl⟩ := h
  obtain ⟨kvs, h2, h3, -⟩ := nativeO_ok h1
  exact ⟨obj, kvs, rfl, h2, fun k => by rw [h3]; simp [GoMap.get?]⟩

example : nativeE exExt (.object [(.ident (b "a"), .num 1), (.str (b "b c"), .num 2), (.ident (b "a"), .num 3)]) =
    .ok (.map [(b "a", .int 3), (b "b c", .int 2)]) := by decide +kernel

/-- C50 for literals. -/
theorem C50_literals (s : Bytes) (n : Int) (h1 : -(2 ^ 63) ≤ n) (h2 : n < 2 ^ 63) :
    nativeE ext (.str s) = .ok (.str (ext.nfc s)) ∧ nativeE ext (.num n) = .ok (.int n) ∧
    nativeE ext (.neg (.num (-n : Int))) = .ok (.int n) ∧ nativeE ext (.ident (b "true")) = .ok (.bool true) ∧
    nativeE ext (.ident (b "false")) = .ok (.bool false) ∧ nativeE ext (.ident (b "null")) = .ok .nil ∧
    nativeE ext (.call (b "null")) = .ok .nil := by
  have e : evalE ext (.neg (.num (-n : Int))) = .ok (.num n) := by simp [evalE]
  refine ⟨rfl, ?_, ?_, rfl, rfl, rfl, rfl⟩
  · simp only [nativeE, evalE, Out.bind, ctyToNative, cn_int h1 h2, Out.ofExcept]
  · simp only [nativeE, e, Out.bind, ctyToNative, cn_int h1 h2, Out.ofExcept]

/-- Decoding into a map that already has entries: those of the document replace them, the others are
kept. -/
theorem C50_target {text : Bytes} {target m : List (Bytes × GV)} (h : unmarshalMap ext text target = .ok m) :
    ∃ m0, unmarshalMap ext text [] = .ok m0 ∧ ∀ k, GoMap.get? m k = (GoMap.get? m0 k).or (GoMap.get? target k) := by
  simp only [unmarshalMap, Out.map_ok] at h
  obtain ⟨obj, h1, rfl⟩ := h
  have hn := (decodeMap_sorted h1).nodup
  refine ⟨_, by rw [unmarshalMap, h1]; rfl, fun k => ?_⟩
  rw [foldl_insert _ _ _ hn, foldl_insert _ _ _ hn]
  simp [GoMap.get?]

example : unmarshalMap exExt (b "a = 1\n") [(b "a", .int 7), (b "z", .int 9)] = .ok [(b "a", .int 1), (b "z", .int 9)] := by
  decide +kernel

/-- Decoding into a slice appends the elements. -/
theorem C50_slice {text : Bytes} {target l : List GV} (h : unmarshalSlice ext text target = .ok l) :
    ∃ l0, unmarshalSlice ext text [] = .ok l0 ∧ l = target ++ l0 := by
  simp only [unmarshalSlice, Out.map_ok] at h
  obtain ⟨obj, h1, rfl⟩ := h
  exact ⟨obj, by rw [unmarshalSlice, h1]; rfl, rfl⟩

example : unmarshalSlice exExt (b "[1, \"a\"]") [.nil] = .ok [.nil, .int 1, .str (b "a")] := by decide +kernel

/-- C50 does not hold as stated: `a {x = 1}` followed by `a "l" {y = 2}` loses the first block, and so
does `a "l" {y = 2}` beside `a "l" "k" {z = 3}`. -/
theorem C50_violated :
    ∃ m m', decodeBody exExt [] (.mk [] [(b "a", [], .mk [(b "x", .num 1)] []), (b "a", [b "l"], .mk [(b "y", .num 2)] [])])
        = .ok m ∧ m = [(b "a", .map [(b "l", .map [(b "y", .int 2)])])] ∧
      decodeBody exExt [] (.mk [] [(b "a", [b "l"], .mk [(b "y", .num 2)] []),
        (b "a", [b "l", b "k"], .mk [(b "z", .num 3)] [])]) = .ok m' ∧
      m' = [(b "a", .map [(b "l", .map [(b "k", .map [(b "z", .int 3)])])])] :=
  ⟨_, _, by decide +kernel, rfl, by decide +kernel, rfl⟩

/-- C49 for texts that are not blank: no panic if the object keys are names or strings and evaluating
variables and functions does not panic. What is missing: blank texts and object keys that are numbers,
lists or objects (see `C49_violated`). -/
theorem C49_partial (text : Bytes) (target : List (Bytes × GV)) (hb : ¬ IsBlank text)
    (he : ∀ e, ext.eval e ≠ .panic)
    (hk : ∀ body, parseConfig text = .ok body → body.KeysOk)
    (hk' : ∀ body, parseConfig (b "x = " ++ text) = .ok body → body.KeysOk) :
    unmarshalMap ext text target ≠ .panic := by
  unfold unmarshalMap
  refine Out.map_noPanic ?_
  unfold decodeMap
  rw [if_neg (fun h => hb (trimSpace_eq_nil.1 h))]
  split
  · unfold parseX
    cases hp : parseConfig (b "x = " ++ text) with
    | error e => cases e <;> simp [Out.ofParse, Out.bind]
    | ok body =>
      simp only [Out.ofParse, Out.bind]
      have hb := hk' body hp
      cases body with
      | mk attrs blocks =>
        simp only [Body.attrs, Body.KeysOk] at hb ⊢
        cases hg : GoMap.get? attrs (b "x") with
        | none => simp
        | some e =>
          have hbe := hb.1 _ (GoMap.get?_mem hg)
          cases e with
          | object m => simp only [Expr.KeysOk] at hbe; exact nativeO_noPanic he m [] hbe
          | _ => simp
  · cases hp : parseConfig text with
    | error e => cases e <;> simp [Out.ofParse, Out.bind]
    | ok body => exact decodeBody_noPanic he body [] (hk body hp)

/-- The texts of the examples. -/
def exText : Bytes := b "a = 1\ng \"h\" {\n  i = [2, {j = \"k\"}]\n}\n"

example : ¬ IsBlank exText := by simp [IsBlank]; exact ⟨97, by decide, by decide⟩
example : parseConfig exText = .ok (.mk [(b "a", .num 1)]
    [(b "g", [b "h"], .mk [(b "i", .tuple [.num 2, .object [(.ident (b "j"), .str (b "k"))]])] [])]) := by
  decide +kernel
example : unmarshalMap exExt exText [] = .ok [(b "a", .int 1),
    (b "g", .map [(b "h", .map [(b "i", .list [.int 2, .map [(b "j", .str (b "k"))]])])])] := by
  decide +kernel

theorem minus_iff : ∀ e : Expr, isNumLit ext e = true ↔ Minus ext e
  | .num q => ⟨fun _ => .num q, fun _ => rfl⟩
  | .str s => by
    simp only [isNumLit]
    constructor
    · intro h
      split at h
      · next q hq => exact .str s q hq
      · cases h
    · intro h
      cases h with
      | str _ q hq => rw [hq]
  | .neg e => by
    simp only [isNumLit]
    exact ⟨fun h => .neg ((minus_iff e).1 h), fun h => by cases h with | neg h => exact (minus_iff e).2 h⟩
  | .ident _ | .call _ | .tuple _ | .object _ => ⟨fun h => by simp [isNumLit] at h, fun h => by cases h⟩

theorem keyE_panic (k : Expr) : keyE ext k = .panic ↔ NoName ext k := by
  cases k with
  | num q => exact ⟨fun _ => .num q, fun _ => rfl⟩
  | tuple l => exact ⟨fun _ => .tuple l, fun _ => rfl⟩
  | object m => exact ⟨fun _ => .object m, fun _ => rfl⟩
  | neg e =>
    simp only [keyE]
    constructor
    · intro h
      split at h
      · next hn => exact .neg ((minus_iff e).1 hn)
      · cases h
    · intro h
      cases h with
      | neg h => rw [if_pos ((minus_iff e).2 h)]
  | _ => exact ⟨(fun h => by simp [keyE] at h), (fun h => by cases h)⟩

theorem keyE_iff (k : Expr) (n : Bytes) : keyE ext k = .ok n ↔ KeyName ext k n :=
  ⟨keyE_ok, fun h => by cases h <;> rfl⟩

theorem nativeO_panic (m : List (Expr × Expr)) : ∀ obj, nativeO ext m obj = .panic ↔ ∃ m₁ k e m₂, m = m₁ ++ (k, e) :: m₂ ∧
    (∀ x ∈ m₁, (∃ n, KeyName ext x.1 n) ∧ ∃ v, nativeE ext x.2 = .ok v) ∧
    (NoName ext k ∨ (∃ n, KeyName ext k n) ∧ nativeE ext e = .panic) := by
  induction m with
  | nil => intro obj; exact ⟨fun h => by simp [nativeO] at h, fun ⟨m₁, k, e, m₂, h, _⟩ => by simp at h⟩
  | cons x m ih =>
    obtain ⟨k, e⟩ := x
    intro obj
    simp only [nativeO]
    constructor
    · intro h
      cases hk : keyE ext k with
      | panic => exact ⟨[], k, e, m, rfl, by simp, .inl ((keyE_panic k).1 hk)⟩
      | ok n =>
        rw [hk] at h
        simp only [Out.bind] at h
        cases he : nativeE ext e with
        | panic => exact ⟨[], k, e, m, rfl, by simp, .inr ⟨⟨n, keyE_ok hk⟩, he⟩⟩
        | ok v =>
          rw [he] at h
          obtain ⟨m₁, k', e', m₂, rfl, ha, hp⟩ := (ih _).1 h
          refine ⟨(k, e) :: m₁, k', e', m₂, rfl, fun x hx => ?_, hp⟩
          rcases List.mem_cons.1 hx with rfl | hx
          · exact ⟨⟨n, keyE_ok hk⟩, v, he⟩
          · exact ha x hx
        | _ => rw [he] at h; cases h
      | _ => rw [hk] at h; simp [Out.bind] at h
    · rintro ⟨m₁, k', e', m₂, hm, ha, hp⟩
      cases m₁ with
      | nil =>
        simp only [List.nil_append, List.cons.injEq, Prod.mk.injEq] at hm
        obtain ⟨⟨rfl, rfl⟩, rfl⟩ := hm
        rcases hp with hp | ⟨⟨n, hn⟩, hp⟩
        · rw [(keyE_panic k).2 hp]; rfl
        · rw [(keyE_iff k n).2 hn, hp]; rfl
      | cons x m₁ =>
        simp only [List.cons_append, List.cons.injEq] at hm
        obtain ⟨rfl, rfl⟩ := hm
        obtain ⟨⟨n, hn⟩, v, hv⟩ := ha _ (List.mem_cons_self ..)
        rw [(keyE_iff k n).2 hn, hv]
        exact (ih _).2 ⟨m₁, k', e', m₂, rfl, fun x hx => ha x (List.mem_cons_of_mem _ hx), hp⟩

/-- C49, exactly for objects: decoding one panics if and only if there is a member with a key that is a number (with minus signs, or from a string
with one), a list or an object, or with a value that panics, and all members before it are fine. -/
theorem C49_object (m : List (Expr × Expr)) : nativeE ext (.object m) = .panic ↔ ∃ m₁ k e m₂, m = m₁ ++ (k, e) :: m₂ ∧
    (∀ x ∈ m₁, (∃ n, KeyName ext x.1 n) ∧ ∃ v, nativeE ext x.2 = .ok v) ∧
    (NoName ext k ∨ (∃ n, KeyName ext k n) ∧ nativeE ext e = .panic) := by
  rw [← nativeO_panic m []]
  simp only [nativeE]
  cases nativeO ext m [] <;> simp [Out.map, Out.bind]

/-- C49, exactly for lists: the first element that is not fine panics. -/
theorem C49_list (l : List Expr) : nativeE ext (.tuple l) = .panic ↔ ∃ l₁ e l₂, l = l₁ ++ e :: l₂ ∧
    (∀ x ∈ l₁, ∃ v, nativeE ext x = .ok v) ∧ nativeE ext e = .panic := by
  have key : nativeL ext l = .panic ↔ ∃ l₁ e l₂, l = l₁ ++ e :: l₂ ∧ (∀ x ∈ l₁, ∃ v, nativeE ext x = .ok v) ∧ nativeE ext e = .panic := by
    induction l with
    | nil => exact ⟨fun h => by simp [nativeL] at h, fun ⟨l₁, e, l₂, h, _⟩ => by simp at h⟩
    | cons x l ih =>
      simp only [nativeL]
      constructor
      · intro h
        cases hx : nativeE ext x with
        | panic => exact ⟨[], x, l, rfl, by simp, hx⟩
        | ok v =>
          rw [hx] at h
          have hl : nativeL ext l = .panic := by
            simp only [Out.bind] at h
            cases hl : nativeL ext l <;> rw [hl] at h <;> simp [Out.map, Out.bind] at h ⊢
          obtain ⟨l₁, e, l₂, rfl, ha, he⟩ := ih.1 hl
          refine ⟨x :: l₁, e, l₂, rfl, fun y hy => ?_, he⟩
          rcases List.mem_cons.1 hy with rfl | hy
          · exact ⟨v, hx⟩
          · exact ha y hy
        | _ => rw [hx] at h; simp [Out.bind] at h
      · rintro ⟨l₁, e, l₂, hl, ha, he⟩
        cases l₁ with
        | nil =>
          simp only [List.nil_append, List.cons.injEq] at hl
          rw [hl.1, he]; rfl
        | cons y l₁ =>
          simp only [List.cons_append, List.cons.injEq] at hl
          obtain ⟨rfl, rfl⟩ := hl
          obtain ⟨v, hv⟩ := ha _ (List.mem_cons_self ..)
          rw [hv, ih.2 ⟨l₁, e, l₂, rfl, fun z hz => ha z (List.mem_cons_of_mem _ hz), he⟩]; rfl
  rw [← key]
  simp only [nativeE]
  cases nativeL ext l <;> simp [Out.map, Out.bind]

example : nativeE exExt (.object [(.ident (b "a"), .num 1), (.neg (.num 2), .num 3)]) = .panic := by decide +kernel
example : nativeE exExt (.tuple [.num 1, .object [(.neg (.ident (b "a")), .num 3)], .object [(.num 1, .num 3)]]) ≠ .panic := by decide +kernel

/-- C49 does not hold as stated: `Unmarshal` of an empty text, and of `x = {1 = 2}`, panics. -/
theorem C49_violated :
    unmarshalMap exExt [] [] = .panic ∧ unmarshalMap exExt (b "x = {1 = 2}\n") [] = .panic ∧
      ∀ text target, IsBlank text → unmarshalMap ext text target = .panic := by
  refine ⟨by decide +kernel, by decide +kernel, fun text target h => ?_⟩
  unfold unmarshalMap decodeMap
  rw [if_pos (trimSpace_eq_nil.2 h)]; rfl

end Verif.Hcl
