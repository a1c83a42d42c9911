import Mathlib.Data.List.Forall2
import Verif.Lemmas.Det
import Verif.Lemmas.GoMap
import Verif.Spec.Hcl
set_option linter.unusedSimpArgs false
/-! What decoding a body gives. -/
namespace Verif.Hcl
open Det (insertK ltB ltB_lin get?_insertK)

theorem Out.bind_ok {α β : Type} {x : Out α} {f : α → Out β} {y : β} :
    x.bind f = .ok y ↔ ∃ a, x = .ok a ∧ f a = .ok y := by
  cases x <;> simp [Out.bind]

theorem Out.map_ok {α β : Type} {x : Out α} {f : α → β} {y : β} :
    x.map f = .ok y ↔ ∃ a, x = .ok a ∧ f a = y := by
  cases x <;> simp [Out.map, Out.bind]

/-- The value of a successful outcome. -/
def Out.opt {α : Type} : Out α → Option α
  | .ok a => some a
  | _ => none

theorem Out.opt_some {α : Type} {x : Out α} {a : α} : x.opt = some a ↔ x = .ok a := by
  cases x <;> simp [Out.opt]

theorem Out.opt_bind {α β : Type} {x x' : Out α} {f f' : α → Out β} (h : x.opt = x'.opt)
    (hf : ∀ a, x = .ok a → (f a).opt = (f' a).opt) : (x.bind f).opt = (x'.bind f').opt := by
  cases x with
  | ok a =>
    have h' : x' = .ok a := Out.opt_some.1 h.symm
    subst h'
    exact hf a rfl
  | _ =>
    cases x' with
    | ok a => simp [Out.opt] at h
    | _ => simp [Out.opt, Out.bind]

theorem Out.opt_map {α β : Type} {x x' : Out α} {f : α → β} (h : x.opt = x'.opt) :
    (x.map f).opt = (x'.map f).opt := Out.opt_bind h fun _ _ => rfl

/-! ## Sorted maps -/

/-- Sorted by key. -/
def SortedK {α : Type} (m : List (Bytes × α)) : Prop := m.Pairwise fun x y => ltB x.1 y.1 = true

theorem mem_keys_insertK {α : Type} {k : Bytes} {v : α} {m : List (Bytes × α)} {x : Bytes} :
    x ∈ GoMap.keys (insertK ltB k v m) ↔ x = k ∨ x ∈ GoMap.keys m := by
  rw [← GoMap.get?_isSome, ← GoMap.get?_isSome, get?_insertK]
  split
  · rename_i h; subst h; simp
  · rename_i h; simp [Ne.symm h]

theorem SortedK.insert {α : Type} {k : Bytes} {v : α} {m : List (Bytes × α)} (h : SortedK m) :
    SortedK (insertK ltB k v m) := by
  induction m with
  | nil => simp [insertK, SortedK]
  | cons e m ih =>
    obtain ⟨k', v'⟩ := e
    simp only [SortedK, List.pairwise_cons] at h
    simp only [insertK]
    split
    · rename_i h1; subst h1
      simp only [SortedK, List.pairwise_cons]; exact h
    · rename_i h1
      split
      · rename_i h2
        simp only [SortedK, List.pairwise_cons]
        refine ⟨?_, h⟩
        intro y hy
        simp only [List.mem_cons] at hy
        rcases hy with rfl | hy
        · exact h2
        · exact ltB_lin.trans _ _ _ h2 (h.1 y hy)
      · rename_i h2
        simp only [SortedK, List.pairwise_cons]
        refine ⟨?_, ih h.2⟩
        intro y hy
        have : y.1 ∈ GoMap.keys (insertK ltB k v m) := List.mem_map.2 ⟨y, hy, rfl⟩
        rw [mem_keys_insertK] at this
        rcases this with e | he
        · rw [e]
          rcases ltB_lin.total _ _ h1 with h3 | h3
          · exact absurd h3 h2
          · exact h3
        · obtain ⟨z, hz, e⟩ := List.mem_map.1 he
          rw [← e]; exact h.1 z hz

theorem SortedK.nodup {α : Type} {m : List (Bytes × α)} (h : SortedK m) : (GoMap.keys m).Nodup := by
  refine (List.pairwise_map.2 (h.imp ?_))
  intro x y hxy e
  rw [e, ltB_lin.irrefl] at hxy
  simp at hxy

theorem get?_cons_lt {α : Type} {m : List (Bytes × α)} {k x : Bytes} (h : ∀ y ∈ m, ltB k y.1 = true) (hx : ltB x k = true ∨ x = k) :
    GoMap.get? m x = none := by
  rw [GoMap.get?_eq_none]
  intro hm
  obtain ⟨y, hy, e⟩ := List.mem_map.1 hm
  have h1 := h y hy
  rw [e] at h1
  rcases hx with hx | hx
  · have := ltB_lin.trans _ _ _ hx h1; rw [ltB_lin.irrefl] at this; simp at this
  · rw [hx, ltB_lin.irrefl] at h1; simp at h1

/-- Sorted maps with the same entries are equal. -/
theorem SortedK.ext {α : Type} {m m' : List (Bytes × α)} (h : SortedK m) (h' : SortedK m')
    (he : ∀ k, GoMap.get? m k = GoMap.get? m' k) : m = m' := by
  induction m generalizing m' with
  | nil =>
    cases m' with
    | nil => rfl
    | cons e m' => have := he e.1; simp [GoMap.get?] at this
  | cons e m ih =>
    obtain ⟨k, v⟩ := e
    cases m' with
    | nil => have := he k; simp [GoMap.get?] at this
    | cons e' m' =>
      obtain ⟨k', v'⟩ := e'
      simp only [SortedK, List.pairwise_cons] at h h'
      have hk : k = k' := by
        apply Classical.byContradiction
        intro hne
        rcases ltB_lin.total _ _ hne with h1 | h1
        · have := he k
          simp only [GoMap.get?, if_true] at this
          rw [if_neg (Ne.symm hne), get?_cons_lt h'.1 (Or.inl h1)] at this
          simp at this
        · have := he k'
          simp only [GoMap.get?, if_true] at this
          rw [if_neg hne, get?_cons_lt h.1 (Or.inl h1)] at this
          simp at this
      subst hk
      have hv : v = v' := by have := he k; simpa [GoMap.get?] using this
      subst hv
      congr 1
      refine ih h.2 h'.2 fun x => ?_
      by_cases hx : k = x
      · subst hx
        rw [get?_cons_lt h.1 (Or.inr rfl), get?_cons_lt h'.1 (Or.inr rfl)]
      · have := he x
        simpa [GoMap.get?, hx] using this

/-! ## The loops over maps -/

theorem assignAll_ok {val : Bytes → Out GV} (ks : List Bytes) {obj res : List (Bytes × GV)}
    (h : assignAll val ks obj = .ok res) :
    (∀ x, x ∉ ks → GoMap.get? res x = GoMap.get? obj x) ∧
    (∀ x ∈ ks, ∃ v, val x = .ok v ∧ GoMap.get? res x = some v) ∧ (SortedK obj → SortedK res) := by
  induction ks generalizing obj with
  | nil => simp only [assignAll, Out.ok.injEq] at h; subst h; simp
  | cons k ks ih =>
    simp only [assignAll, Out.bind_ok] at h
    obtain ⟨v, hv, h⟩ := h
    obtain ⟨h1, h2, h3⟩ := ih h
    refine ⟨?_, ?_, fun hs => h3 hs.insert⟩
    · intro x hx
      simp only [List.mem_cons, not_or] at hx
      rw [h1 x hx.2, get?_insertK, if_neg (fun e => hx.1 e.symm)]
    · intro x hx
      by_cases hx' : x ∈ ks
      · exact h2 x hx'
      · simp only [List.mem_cons, hx', or_false] at hx
        subst hx
        exact ⟨v, hv, by rw [h1 _ hx', get?_insertK]; simp⟩

theorem assignAll_total {val : Bytes → Out GV} (ks : List Bytes) (obj : List (Bytes × GV))
    (h : ∀ k ∈ ks, ∃ v, val k = .ok v) : ∃ res, assignAll val ks obj = .ok res := by
  induction ks generalizing obj with
  | nil => exact ⟨_, rfl⟩
  | cons k ks ih =>
    obtain ⟨v, hv⟩ := h k (by simp)
    simp only [assignAll, hv, Out.bind]
    exact ih _ fun x hx => h x (List.mem_cons_of_mem _ hx)

theorem assignAll_some {val val' : Bytes → Out GV} {ks ks' : List Bytes} {obj res : List (Bytes × GV)}
    (hs : SortedK obj) (hp : ks.Perm ks') (hv : ∀ k ∈ ks, (val k).opt = (val' k).opt)
    (h : assignAll val ks obj = .ok res) : assignAll val' ks' obj = .ok res := by
  obtain ⟨h1, h2, h3⟩ := assignAll_ok ks h
  obtain ⟨res', h'⟩ := assignAll_total (val := val') ks' obj fun k hk => by
    obtain ⟨v, hv1, _⟩ := h2 k (hp.mem_iff.2 hk)
    refine ⟨v, Out.opt_some.1 ?_⟩
    rw [← hv k (hp.mem_iff.2 hk), hv1]; rfl
  obtain ⟨g1, g2, g3⟩ := assignAll_ok ks' h'
  rw [h']
  congr 1
  refine (SortedK.ext (g3 hs) (h3 hs) fun x => ?_)
  by_cases hx : x ∈ ks
  · obtain ⟨v, a, c⟩ := h2 x hx
    obtain ⟨v', a', c'⟩ := g2 x (hp.mem_iff.1 hx)
    have := hv x hx
    rw [a, a'] at this
    simp only [Out.opt, Option.some.injEq] at this
    rw [c, c', this]
  · rw [h1 x hx, g1 x fun hc => hx (hp.mem_iff.2 hc)]

theorem assignAll_opt {val val' : Bytes → Out GV} {ks ks' : List Bytes} {obj : List (Bytes × GV)}
    (hs : SortedK obj) (hp : ks.Perm ks') (hv : ∀ k ∈ ks, (val k).opt = (val' k).opt) :
    (assignAll val ks obj).opt = (assignAll val' ks' obj).opt := by
  cases h : assignAll val ks obj with
  | ok res => rw [assignAll_some hs hp hv h]
  | _ =>
    cases h' : assignAll val' ks' obj with
    | ok res =>
      rw [assignAll_some hs hp.symm (fun k hk => (hv k (hp.mem_iff.2 hk)).symm) h'] at h
      cases h
    | _ => rfl

theorem SortedK.nil {α : Type} : SortedK ([] : List (Bytes × α)) := List.Pairwise.nil

/-! ## Independence of the order -/

/-- Outcomes of blocks that agree when they succeed. -/
def SameRes : Blocks → Blocks → Prop := List.Forall₂ fun x y => x.1 = y.1 ∧ x.2.1 = y.2.1 ∧ x.2.2.opt = y.2.2.opt

theorem seqOut_opt {l l' : List (Out GV)} (h : List.Forall₂ (fun x y => x.opt = y.opt) l l') :
    (seqOut l).opt = (seqOut l').opt := by
  induction h with
  | nil => rfl
  | cons h _ ih => exact Out.opt_bind h fun a _ => Out.opt_map ih

theorem SameRes.filter {bs bs' : Blocks} (h : SameRes bs bs') (p : Bytes → List Bytes → Bool) :
    SameRes (bs.filter fun x => p x.1 x.2.1) (bs'.filter fun x => p x.1 x.2.1) := by
  induction h with
  | nil => exact .nil
  | cons h _ ih =>
    obtain ⟨h1, h2, h3⟩ := h
    simp only [List.filter_cons, h1, h2]
    split
    · exact .cons ⟨h1, h2, h3⟩ ih
    · exact ih

theorem SameRes.zeros {bs bs' : Blocks} (h : SameRes bs bs') (key : Bytes) :
    List.Forall₂ (fun x y => x.opt = y.opt) (Hcl.zeros bs key) (Hcl.zeros bs' key) := by
  have := h.filter fun t ls => t = key && ls.length = 0
  unfold Hcl.zeros
  revert this
  generalize List.filter _ bs = l1
  generalize List.filter _ bs' = l2
  intro this
  induction this with
  | nil => exact .nil
  | cons h _ ih => exact .cons h.2.2 ih

/-- Labelled outcomes that agree when they succeed. -/
def SameOnes : List (Bytes × Out GV) → List (Bytes × Out GV) → Prop :=
  List.Forall₂ fun x y => x.1 = y.1 ∧ x.2.opt = y.2.opt

theorem SameOnes.keys {l l' : List (Bytes × Out GV)} (h : SameOnes l l') : l.map Prod.fst = l'.map Prod.fst := by
  induction h with
  | nil => rfl
  | cons h _ ih => simp [h.1, ih]

theorem SameOnes.filter {l l' : List (Bytes × Out GV)} (h : SameOnes l l') (k : Bytes) :
    SameOnes (l.filter fun e => e.1 = k) (l'.filter fun e => e.1 = k) := by
  induction h with
  | nil => exact .nil
  | cons h _ ih =>
    simp only [List.filter_cons, h.1]
    split
    · exact .cons h ih
    · exact ih

theorem forall₂_getLast? {α β : Type} {R : α → β → Prop} {l : List α} {l' : List β} (h : List.Forall₂ R l l') :
    (l.getLast? = none ∧ l'.getLast? = none) ∨ ∃ x y, l.getLast? = some x ∧ l'.getLast? = some y ∧ R x y := by
  induction h with
  | nil => exact Or.inl ⟨rfl, rfl⟩
  | cons h ht ih =>
    right
    rcases ih with ⟨h1, h2⟩ | ⟨x, y, h1, h2, h3⟩
    · simp only [List.getLast?_eq_none_iff] at h1 h2
      subst h1; subst h2
      exact ⟨_, _, rfl, rfl, h⟩
    · refine ⟨x, y, ?_, ?_, h3⟩
      · rw [List.getLast?_cons, h1]; rfl
      · rw [List.getLast?_cons, h2]; rfl

theorem SameOnes.lastO {l l' : List (Bytes × Out GV)} (h : SameOnes l l') (k : Bytes) :
    (Hcl.lastO l k).opt = (Hcl.lastO l' k).opt := by
  unfold Hcl.lastO
  rcases forall₂_getLast? (h.filter k) with ⟨h1, h2⟩ | ⟨x, y, h1, h2, h3⟩
  · rw [h1, h2]
  · rw [h1, h2]; exact h3.2

theorem SameRes.ones {bs bs' : Blocks} (h : SameRes bs bs') (key : Bytes) :
    SameOnes (Hcl.ones bs key) (Hcl.ones bs' key) := by
  have := h.filter fun t ls => t = key && ls.length = 1
  unfold Hcl.ones
  revert this
  generalize List.filter _ bs = l1
  generalize List.filter _ bs' = l2
  intro this
  induction this with
  | nil => exact .nil
  | cons h _ ih => exact .cons ⟨by simp [h.2.1], h.2.2⟩ ih

theorem SameRes.twos {bs bs' : Blocks} (h : SameRes bs bs') (key : Bytes) :
    (Hcl.twos bs key).map Prod.fst = (Hcl.twos bs' key).map Prod.fst ∧
    ∀ l, SameOnes (twosOf bs key l) (twosOf bs' key l) := by
  have := h.filter fun t ls => t = key && ls.length = 2
  unfold Hcl.twosOf Hcl.twos
  revert this
  generalize List.filter _ bs = l1
  generalize List.filter _ bs' = l2
  intro this
  induction this with
  | nil => exact ⟨rfl, fun _ => .nil⟩
  | cons h _ ih =>
    refine ⟨by rw [List.map_cons, List.map_cons, List.map_cons, List.map_cons, ih.1, h.2.1], fun l => ?_⟩
    have ihl := ih.2 l
    simp only [List.map_cons, List.filter_cons, h.2.1]
    split
    · exact .cons ⟨rfl, h.2.2⟩ ihl
    · exact ihl

theorem SameRes.types {bs bs' : Blocks} (h : SameRes bs bs') (n : Nat) : typesOf bs n = typesOf bs' n := by
  have := h.filter fun _ ls => ls.length = n
  unfold typesOf
  congr 1
  revert this
  generalize List.filter _ bs = l1
  generalize List.filter _ bs' = l2
  intro this
  induction this with
  | nil => rfl
  | cons h _ ih => simp [h.1, ih]

theorem SameRes.any {bs bs' : Blocks} (h : SameRes bs bs') :
    bs.any (fun x => decide (2 < x.2.1.length)) = bs'.any (fun x => decide (2 < x.2.1.length)) := by
  induction h with
  | nil => rfl
  | cons h _ ih => simp [h.2.1, ih]

section
variable {ext : Ext} {ord' : List Bytes → List Bytes → List Bytes}
  (ho : ∀ p ks, (ext.ord p ks).Perm ks) (ho' : ∀ p ks, (ord' p ks).Perm ks)
include ho ho'

theorem ordPerm (p p' ks : List Bytes) : (ext.ord p ks).Perm (ord' p' ks) := (ho p ks).trans (ho' p' ks).symm

theorem decodeBlocks_opt {path path' : List Bytes} {bs bs' : Blocks} (h : SameRes bs bs') {obj : List (Bytes × GV)}
    (hs : SortedK obj) :
    (decodeBlocks ext path bs obj).opt = (decodeBlocks { ext with ord := ord' } path' bs' obj).opt := by
  unfold decodeBlocks
  rw [h.any]
  split
  · rfl
  · refine Out.opt_bind ?_ fun obj1 h1 => Out.opt_bind ?_ fun obj2 h2 => ?_
    · rw [h.types]
      exact assignAll_opt hs (ordPerm ho ho' _ _ _) fun k _ => Out.opt_map (seqOut_opt (h.zeros k))
    · rw [h.types]
      refine assignAll_opt ((assignAll_ok _ h1).2.2 hs) (ordPerm ho ho' _ _ _) fun k _ => Out.opt_map ?_
      rw [(h.ones k).keys]
      exact assignAll_opt .nil (ordPerm ho ho' _ _ _) fun l _ => (h.ones k).lastO l
    · rw [h.types]
      refine assignAll_opt ((assignAll_ok _ h2).2.2 ((assignAll_ok _ h1).2.2 hs)) (ordPerm ho ho' _ _ _)
        fun k _ => Out.opt_map ?_
      rw [(h.twos k).1]
      refine assignAll_opt .nil (ordPerm ho ho' _ _ _) fun l _ => Out.opt_map ?_
      rw [((h.twos k).2 l).keys]
      exact assignAll_opt .nil (ordPerm ho ho' _ _ _) fun l' _ => ((h.twos k).2 l).lastO l'
end

theorem isNumLit_ord (ext : Ext) (ord' : List Bytes → List Bytes → List Bytes) : ∀ e : Expr,
    isNumLit { ext with ord := ord' } e = isNumLit ext e
  | .neg e => by simp only [isNumLit]; exact isNumLit_ord ext ord' e
  | .num _ | .str _ | .ident _ | .call _ | .tuple _ | .object _ => by simp only [isNumLit]

theorem keyE_ord (ext : Ext) (ord' : List Bytes → List Bytes → List Bytes) (e : Expr) :
    keyE { ext with ord := ord' } e = keyE ext e := by
  cases e <;> first | rfl | simp only [keyE, isNumLit_ord]

theorem evalE_ord (ext : Ext) (ord' : List Bytes → List Bytes → List Bytes) :
    ∀ e, evalE { ext with ord := ord' } e = evalE ext e
  | .str _ => rfl
  | .num _ => rfl
  | .ident _ => rfl
  | .neg e => by simp only [evalE, evalE_ord ext ord' e]
  | .call _ => rfl
  | .tuple _ => rfl
  | .object _ => rfl

mutual
theorem nativeE_ord (ext : Ext) (ord' : List Bytes → List Bytes → List Bytes) :
    ∀ e, nativeE { ext with ord := ord' } e = nativeE ext e
  | .str _ => rfl
  | .num _ => rfl
  | .ident _ => rfl
  | .neg e => by simp only [nativeE, evalE_ord]
  | .call _ => rfl
  | .tuple l => by simp only [nativeE, nativeL_ord ext ord' l]
  | .object m => by simp only [nativeE, nativeO_ord ext ord' m]
theorem nativeL_ord (ext : Ext) (ord' : List Bytes → List Bytes → List Bytes) :
    ∀ l, nativeL { ext with ord := ord' } l = nativeL ext l
  | [] => rfl
  | e :: l => by simp only [nativeL, nativeE_ord ext ord' e, nativeL_ord ext ord' l]
theorem nativeO_ord (ext : Ext) (ord' : List Bytes → List Bytes → List Bytes) :
    ∀ m obj, nativeO { ext with ord := ord' } m obj = nativeO ext m obj
  | [], _ => rfl
  | (k, e) :: m, obj => by
    simp only [nativeO, keyE_ord, nativeE_ord ext ord' e]
    congr 1; funext key; congr 1; funext v
    exact nativeO_ord ext ord' m _
end

mutual
theorem decodeBody_opt {ext : Ext} {ord' : List Bytes → List Bytes → List Bytes}
    (ho : ∀ p ks, (ext.ord p ks).Perm ks) (ho' : ∀ p ks, (ord' p ks).Perm ks) :
    ∀ (body : Body) (path path' : List Bytes),
      (decodeBody ext path body).opt = (decodeBody { ext with ord := ord' } path' body).opt
  | .mk attrs blocks, path, path' => by
    simp only [decodeBody]
    refine Out.opt_bind ?_ fun obj h => decodeBlocks_opt ho ho' (blockResults_same ho ho' blocks _ _ _ _)
      ((assignAll_ok _ h).2.2 .nil)
    refine assignAll_opt .nil (ordPerm ho ho' _ _ _) fun k _ => ?_
    have : attrVal { ext with ord := ord' } attrs k = attrVal ext attrs k := by
      unfold attrVal
      simp only [nativeE_ord ext ord']
    rw [this]
theorem blockResults_same {ext : Ext} {ord' : List Bytes → List Bytes → List Bytes}
    (ho : ∀ p ks, (ext.ord p ks).Perm ks) (ho' : ∀ p ks, (ord' p ks).Perm ks) :
    ∀ (blocks : List (Bytes × List Bytes × Body)) (path path' : List Bytes) (i i' : Nat),
      SameRes (blockResults ext path i blocks) (blockResults { ext with ord := ord' } path' i' blocks)
  | [], _, _, _, _ => List.Forall₂.nil
  | (_, _, body) :: r, _, _, _, _ =>
    List.Forall₂.cons ⟨rfl, rfl, Out.opt_map (decodeBody_opt ho ho' body _ _)⟩ (blockResults_same ho ho' r _ _ _ _)
end

/-! ## The entries of the result -/

theorem mem_dedupB {k : Bytes} {l : List Bytes} : k ∈ dedupB l ↔ k ∈ l := by
  induction l with
  | nil => simp [dedupB]
  | cons x l ih =>
    simp only [dedupB, List.mem_cons, List.mem_filter, ih]
    by_cases h : k = x <;> simp [h]

theorem mem_typesOf {bs : Blocks} {n : Nat} {k : Bytes} :
    k ∈ typesOf bs n ↔ ∃ x ∈ bs, x.1 = k ∧ x.2.1.length = n := by
  simp only [typesOf, mem_dedupB, List.mem_map, List.mem_filter, decide_eq_true_eq]
  constructor
  · rintro ⟨x, ⟨h1, h2⟩, h3⟩; exact ⟨x, h1, h3, h2⟩
  · rintro ⟨x, h1, h2, h3⟩; exact ⟨x, ⟨h1, h3⟩, h2⟩

theorem decodeBlocks_ok {ext : Ext} (ho : ∀ p ks, (ext.ord p ks).Perm ks) {path : List Bytes} {bs : Blocks}
    {obj m : List (Bytes × GV)} (h : decodeBlocks ext path bs obj = .ok m) :
    (∀ x ∈ bs, x.2.1.length ≤ 2) ∧
    ∀ k, (k ∈ typesOf bs 2 → ∃ v, twoVal ext (path ++ [b "2"]) bs k = .ok v ∧ GoMap.get? m k = some v) ∧
      (k ∉ typesOf bs 2 → k ∈ typesOf bs 1 →
        ∃ v, oneVal ext (path ++ [b "1"]) bs k = .ok v ∧ GoMap.get? m k = some v) ∧
      (k ∉ typesOf bs 2 → k ∉ typesOf bs 1 → k ∈ typesOf bs 0 →
        ∃ v, zeroVal bs k = .ok v ∧ GoMap.get? m k = some v) ∧
      (k ∉ typesOf bs 2 → k ∉ typesOf bs 1 → k ∉ typesOf bs 0 → GoMap.get? m k = GoMap.get? obj k) := by
  unfold decodeBlocks at h
  split at h
  · cases h
  · rename_i hany
    simp only [Out.bind_ok] at h
    obtain ⟨o1, h1, o2, h2, h3⟩ := h
    obtain ⟨a1, c1, -⟩ := assignAll_ok _ h1
    obtain ⟨a2, c2, -⟩ := assignAll_ok _ h2
    obtain ⟨a3, c3, -⟩ := assignAll_ok _ h3
    simp only [(ho _ _).mem_iff] at a1 c1 a2 c2 a3 c3
    refine ⟨?_, fun k => ⟨fun hk => c3 k hk, fun n2 hk => ?_, fun n2 n1 hk => ?_, fun n2 n1 n0 => ?_⟩⟩
    · intro x hx
      simp only [List.any_eq_true, decide_eq_true_eq, not_exists, not_and, Nat.not_lt] at hany
      exact hany x hx
    · obtain ⟨v, e, g⟩ := c2 k hk
      exact ⟨v, e, by rw [a3 k n2, g]⟩
    · obtain ⟨v, e, g⟩ := c1 k hk
      exact ⟨v, e, by rw [a3 k n2, a2 k n1, g]⟩
    · rw [a3 k n2, a2 k n1, a1 k n0]

/-- The outcome of a block does not depend on where it is. -/
theorem decodeBody_path {ext : Ext} (ho : ∀ p ks, (ext.ord p ks).Perm ks) (body : Body) (p p' : List Bytes) :
    (decodeBody ext p body).opt = (decodeBody ext p' body).opt :=
  decodeBody_opt (ord' := ext.ord) ho ho body p p'

theorem blockResults_eq {ext : Ext} (ho : ∀ p ks, (ext.ord p ks).Perm ks) :
    ∀ (blocks : List (Bytes × List Bytes × Body)) (path : List Bytes) (i : Nat),
      List.Forall₂ (fun x y => y.1 = x.1 ∧ y.2.1 = x.2.1 ∧ y.2.2.opt = ((decodeBody ext [] x.2.2).map GV.map).opt)
        blocks (blockResults ext path i blocks)
  | [], _, _ => List.Forall₂.nil
  | (_, _, body) :: r, _, _ =>
    List.Forall₂.cons ⟨rfl, rfl, Out.opt_map (decodeBody_path ho body _ _)⟩ (blockResults_eq ho r _ _)

theorem blockResults_append (ext : Ext) : ∀ (a c : List (Bytes × List Bytes × Body)) (path : List Bytes) (i : Nat),
    blockResults ext path i (a ++ c) = blockResults ext path i a ++ blockResults ext path (i + a.length) c
  | [], c, path, i => by simp [blockResults]
  | (t, ls, body) :: a, c, path, i => by
    simp only [List.cons_append, blockResults, blockResults_append ext a c path (i + 1), List.length_cons]
    rw [show i + 1 + a.length = i + (a.length + 1) by omega]

theorem blockResults_keys (ext : Ext) : ∀ (blocks : List (Bytes × List Bytes × Body)) (path : List Bytes) (i : Nat),
    (blockResults ext path i blocks).map (fun x => (x.1, x.2.1)) = blocks.map fun x => (x.1, x.2.1)
  | [], _, _ => rfl
  | (_, _, _) :: r, path, i => by
    simp only [blockResults, List.map_cons, blockResults_keys ext r path (i + 1)]

theorem exists_blockResults (ext : Ext) (blocks : List (Bytes × List Bytes × Body)) (path : List Bytes) (i : Nat)
    (P : Bytes → List Bytes → Prop) :
    (∃ y ∈ blockResults ext path i blocks, P y.1 y.2.1) ↔ ∃ x ∈ blocks, P x.1 x.2.1 := by
  have h := blockResults_keys ext blocks path i
  constructor
  · rintro ⟨y, hy, hp⟩
    have : (y.1, y.2.1) ∈ blocks.map fun x => (x.1, x.2.1) := by
      rw [← h]; exact List.mem_map.2 ⟨y, hy, rfl⟩
    obtain ⟨x, hx, e⟩ := List.mem_map.1 this
    simp only [Prod.mk.injEq] at e
    exact ⟨x, hx, by rw [e.1, e.2]; exact hp⟩
  · rintro ⟨y, hy, hp⟩
    have : (y.1, y.2.1) ∈ (blockResults ext path i blocks).map fun x => (x.1, x.2.1) := by
      rw [h]; exact List.mem_map.2 ⟨y, hy, rfl⟩
    obtain ⟨x, hx, e⟩ := List.mem_map.1 this
    simp only [Prod.mk.injEq] at e
    exact ⟨x, hx, by rw [e.1, e.2]; exact hp⟩

theorem lastO_append {a c : List (Bytes × Out GV)} {k : Bytes} {v : Out GV} (h : ∀ x ∈ c, x.1 ≠ k) :
    lastO (a ++ (k, v) :: c) k = v := by
  have : (c.filter fun e => e.1 = k) = [] := by
    simp only [List.filter_eq_nil_iff, decide_eq_true_eq]; exact h
  simp [lastO, List.filter_append, List.filter_cons, this]

theorem seqOut_ok {l : List (Out GV)} {vs : List GV} :
    seqOut l = .ok vs ↔ List.Forall₂ (fun x v => x = .ok v) l vs := by
  induction l generalizing vs with
  | nil => simp [seqOut, eq_comm]
  | cons o l ih =>
    simp only [seqOut, Out.bind_ok, Out.map_ok]
    constructor
    · rintro ⟨v, h1, vs', h2, rfl⟩
      exact .cons h1 (ih.1 h2)
    · intro h
      cases h with
      | cons h1 h2 => exact ⟨_, h1, _, ih.2 h2, rfl⟩

/-! ## No panic -/

theorem Out.bind_noPanic {α β : Type} {x : Out α} {f : α → Out β} (h : x ≠ .panic) (hf : ∀ a, f a ≠ .panic) :
    x.bind f ≠ .panic := by
  cases x <;> simp_all [Out.bind]

theorem Out.map_noPanic {α β : Type} {x : Out α} {f : α → β} (h : x ≠ .panic) : x.map f ≠ .panic :=
  Out.bind_noPanic h fun _ => by simp

theorem Out.ofExcept_noPanic {α : Type} (x : Except Unit α) : Out.ofExcept x ≠ .panic := by
  cases x <;> simp [Out.ofExcept]

theorem Out.ofParse_noPanic {α : Type} (x : Except Bad α) : Out.ofParse x ≠ .panic := by
  rcases x with (_ | _) | _ <;> simp [Out.ofParse]

section
variable {ext : Ext} (he : ∀ e, ext.eval e ≠ .panic)
include he

theorem evalE_noPanic (e : Expr) : evalE ext e ≠ .panic := by
  cases e with
  | str s => simp [evalE]
  | num q => simp [evalE]
  | ident n =>
    simp only [evalE]
    split <;> (try split) <;> (try split) <;> simp [he]
  | neg e => simp only [evalE]; split <;> simp [he]
  | call n => simp only [evalE]; split <;> simp [he]
  | tuple l => simp [evalE, he]
  | object m => simp [evalE, he]

theorem value_noPanic (e : Expr) : ((evalE ext e).bind fun c => .ofExcept (ctyToNative c)) ≠ .panic :=
  Out.bind_noPanic (evalE_noPanic he e) fun _ => Out.ofExcept_noPanic _

omit he in
theorem keyE_noPanic {e : Expr} (h : IsKey e) : keyE ext e ≠ .panic := by
  cases e <;> simp_all [IsKey, keyE]

mutual
theorem nativeE_noPanic : ∀ e, Expr.KeysOk e → nativeE ext e ≠ .panic
  | .str s, _ => by simp only [nativeE]; exact value_noPanic he _
  | .num s, _ => by simp only [nativeE]; exact value_noPanic he _
  | .ident s, _ => by simp only [nativeE]; exact value_noPanic he _
  | .neg s, _ => by simp only [nativeE]; exact value_noPanic he _
  | .call n, _ => by
    simp only [nativeE]
    split
    · simp
    · exact value_noPanic he _
  | .tuple l, h => by
    simp only [nativeE]; simp only [Expr.KeysOk] at h
    exact Out.map_noPanic (nativeL_noPanic l h)
  | .object m, h => by
    simp only [nativeE]; simp only [Expr.KeysOk] at h
    exact Out.map_noPanic (nativeO_noPanic m [] h)
theorem nativeL_noPanic : ∀ l, KeysOkL l → nativeL ext l ≠ .panic
  | [], _ => by simp [nativeL]
  | e :: l, h => by
    simp only [KeysOkL] at h
    simp only [nativeL]
    exact Out.bind_noPanic (nativeE_noPanic e h.1) fun _ => Out.map_noPanic (nativeL_noPanic l h.2)
theorem nativeO_noPanic : ∀ m obj, KeysOkO m → nativeO ext m obj ≠ .panic
  | [], _, _ => by simp [nativeO]
  | (k, e) :: m, obj, h => by
    simp only [KeysOkO] at h
    simp only [nativeO]
    exact Out.bind_noPanic (keyE_noPanic h.1) fun _ =>
      Out.bind_noPanic (nativeE_noPanic e h.2.1) fun _ => nativeO_noPanic m _ h.2.2
end

omit he in
theorem assignAll_noPanic {val : Bytes → Out GV} (h : ∀ k, val k ≠ .panic) (ks : List Bytes)
    (obj : List (Bytes × GV)) : assignAll val ks obj ≠ .panic := by
  induction ks generalizing obj with
  | nil => simp [assignAll]
  | cons k ks ih => simp only [assignAll]; exact Out.bind_noPanic (h k) fun _ => ih _

omit he in
theorem seqOut_noPanic {l : List (Out GV)} (h : ∀ x ∈ l, x ≠ .panic) : seqOut l ≠ .panic := by
  induction l with
  | nil => simp [seqOut]
  | cons x l ih =>
    simp only [seqOut]
    exact Out.bind_noPanic (h x (by simp)) fun _ => Out.map_noPanic (ih fun y hy => h y (by simp [hy]))

omit he in
theorem lastO_noPanic {l : List (Bytes × Out GV)} {k : Bytes} (h : ∀ x ∈ l, x.2 ≠ .panic) : lastO l k ≠ .panic := by
  unfold lastO
  split
  · rename_i e h1
    exact h e (List.mem_filter.1 (List.mem_of_getLast? h1)).1
  · simp

omit he in
theorem decodeBlocks_noPanic {path : List Bytes} {bs : Blocks} (h : ∀ x ∈ bs, x.2.2 ≠ .panic)
    (obj : List (Bytes × GV)) : decodeBlocks ext path bs obj ≠ .panic := by
  unfold decodeBlocks
  split
  · simp
  · refine Out.bind_noPanic (assignAll_noPanic (fun k => Out.map_noPanic (seqOut_noPanic ?_)) _ _) fun _ =>
      Out.bind_noPanic (assignAll_noPanic (fun k => Out.map_noPanic
        (assignAll_noPanic (fun l => lastO_noPanic ?_) _ _)) _ _) fun _ =>
      assignAll_noPanic (fun k => Out.map_noPanic (assignAll_noPanic (fun l => Out.map_noPanic
        (assignAll_noPanic (fun l' => lastO_noPanic ?_) _ _)) _ _)) _ _
    · simp only [zeros, List.mem_map, List.mem_filter]
      rintro x ⟨y, ⟨hy, -⟩, rfl⟩; exact h y hy
    · simp only [ones, List.mem_map, List.mem_filter]
      rintro x ⟨y, ⟨hy, -⟩, rfl⟩; exact h y hy
    · simp only [twosOf, twos, List.mem_map, List.mem_filter]
      rintro x ⟨z, ⟨⟨y, ⟨hy, -⟩, rfl⟩, -⟩, rfl⟩; exact h y hy

mutual
theorem decodeBody_noPanic : ∀ (body : Body) (path : List Bytes), body.KeysOk → decodeBody ext path body ≠ .panic
  | .mk attrs blocks, path, h => by
    simp only [Body.KeysOk] at h
    simp only [decodeBody]
    refine Out.bind_noPanic (assignAll_noPanic (fun k => ?_) _ _) fun _ =>
      decodeBlocks_noPanic (blockResults_noPanic blocks path 0 h.2) _
    unfold attrVal
    split
    · rename_i e h1
      exact nativeE_noPanic he e (h.1 _ (GoMap.get?_mem h1))
    · simp
theorem blockResults_noPanic : ∀ (blocks : List (Bytes × List Bytes × Body)) (path : List Bytes) (i : Nat),
    KeysOkB blocks → ∀ x ∈ blockResults ext path i blocks, x.2.2 ≠ .panic
  | [], _, _, _ => by simp [blockResults]
  | (t, ls, body) :: r, path, i, h => by
    simp only [KeysOkB] at h
    simp only [blockResults, List.mem_cons]
    rintro x (rfl | hx)
    · exact Out.map_noPanic (decodeBody_noPanic body _ h.1)
    · exact blockResults_noPanic r path _ h.2 x hx
end
end

theorem dropWhile_eq_nil {l : Bytes} : l.dropWhile isSpace = [] ↔ IsBlank l := by
  induction l with
  | nil => simp [IsBlank]
  | cons c l ih =>
    by_cases h : isSpace c = true
    · simp [List.dropWhile_cons, h, ih, IsBlank]
    · simp [List.dropWhile_cons, h, IsBlank]

theorem trimSpace_eq_nil {l : Bytes} : trimSpace l = [] ↔ IsBlank l := by
  unfold trimSpace
  rw [List.reverse_eq_nil_iff, dropWhile_eq_nil]
  constructor
  · intro h
    rw [← dropWhile_eq_nil]
    apply Classical.byContradiction
    intro hne
    have h1 := h ((l.dropWhile isSpace).head hne) (by simp)
    have h2 := List.head_dropWhile_not isSpace hne
    rw [h1] at h2; simp at h2
  · intro h
    rw [dropWhile_eq_nil.2 h]; simp [IsBlank]

/-! ## Lists and objects in expressions -/

theorem nativeL_ok {ext : Ext} {l : List Expr} {vs : List GV} (h : nativeL ext l = .ok vs) :
    List.Forall₂ (fun e v => nativeE ext e = .ok v) l vs := by
  induction l generalizing vs with
  | nil => simp only [nativeL, Out.ok.injEq] at h; subst h; exact .nil
  | cons e l ih =>
    simp only [nativeL, Out.bind_ok, Out.map_ok] at h
    obtain ⟨v, h1, vs', h2, rfl⟩ := h
    exact .cons h1 (ih h2)

theorem keyE_ok {ext : Ext} {e : Expr} {k : Bytes} (h : keyE ext e = .ok k) : KeyName ext e k := by
  cases e with
  | ident n => simp only [keyE, Out.ok.injEq] at h; subst h; exact .ident n
  | str s => simp only [keyE, Out.ok.injEq] at h; subst h; exact .str s
  | neg e => simp only [keyE] at h; split at h <;> cases h
  | _ => cases h

theorem lastVal_cons (e : Bytes × GV) (l : List (Bytes × GV)) (k : Bytes) :
    lastVal (e :: l) k = (lastVal l k).or (if e.1 = k then some e.2 else none) := by
  unfold lastVal
  by_cases h : e.1 = k
  · simp only [List.filter_cons, h, decide_true, if_true, List.getLast?_cons]
    cases h' : (l.filter fun e => decide (e.1 = k)).getLast? <;> simp
  · simp only [List.filter_cons, h, decide_false, Bool.false_eq_true, if_false, Option.or_none]

theorem nativeO_ok {ext : Ext} {m : List (Expr × Expr)} {obj res : List (Bytes × GV)} (h : nativeO ext m obj = .ok res) :
    ∃ kvs, List.Forall₂ (fun x kv => KeyName ext x.1 kv.1 ∧ nativeE ext x.2 = .ok kv.2) m kvs ∧
      (∀ k, GoMap.get? res k = (lastVal kvs k).or (GoMap.get? obj k)) ∧ (SortedK obj → SortedK res) := by
  induction m generalizing obj with
  | nil =>
    simp only [nativeO, Out.ok.injEq] at h; subst h
    exact ⟨[], .nil, fun k => by simp [lastVal], id⟩
  | cons e m ih =>
    obtain ⟨k, e⟩ := e
    simp only [nativeO, Out.bind_ok] at h
    obtain ⟨key, h1, v, h2, h3⟩ := h
    obtain ⟨kvs, g1, g2, g3⟩ := ih h3
    refine ⟨(key, v) :: kvs, .cons ⟨keyE_ok h1, h2⟩ g1, fun k => ?_, fun hs => g3 hs.insert⟩
    rw [g2, lastVal_cons, get?_insertK]
    by_cases hk : key = k
    · simp [hk]
    · simp [hk]

theorem foldl_insert (obj t : List (Bytes × GV)) (k : Bytes) (hn : (GoMap.keys obj).Nodup) :
    GoMap.get? (obj.foldl (fun t e => insertK ltB e.1 e.2 t) t) k = (GoMap.get? obj k).or (GoMap.get? t k) := by
  induction obj generalizing t with
  | nil => simp [GoMap.get?]
  | cons e obj ih =>
    obtain ⟨k', v'⟩ := e
    simp only [GoMap.keys, List.map_cons, List.nodup_cons] at hn
    rw [List.foldl_cons, ih _ hn.2, get?_insertK]
    simp only [GoMap.get?]
    by_cases h : k' = k
    · subst h
      have : GoMap.get? obj k' = none := GoMap.get?_eq_none.2 hn.1
      simp [this]
    · simp [h]

theorem decodeBody_sorted {ext : Ext} {path : List Bytes} {body : Body} {m : List (Bytes × GV)}
    (h : decodeBody ext path body = .ok m) : SortedK m := by
  cases body with
  | mk attrs blocks =>
    simp only [decodeBody, Out.bind_ok] at h
    obtain ⟨obj, h1, h2⟩ := h
    unfold decodeBlocks at h2
    split at h2
    · cases h2
    · simp only [Out.bind_ok] at h2
      obtain ⟨o1, g1, o2, g2, g3⟩ := h2
      exact (assignAll_ok _ g3).2.2 ((assignAll_ok _ g2).2.2 ((assignAll_ok _ g1).2.2 ((assignAll_ok _ h1).2.2 .nil)))

theorem decodeMap_sorted {ext : Ext} {text : Bytes} {m : List (Bytes × GV)}
    (h : decodeMap ext text = .ok m) : SortedK m := by
  unfold decodeMap at h
  split at h
  · cases h
  · split at h
    · obtain ⟨e, -, h⟩ := Out.bind_ok.1 h
      cases e with
      | object m' => obtain ⟨_, -, -, hs⟩ := nativeO_ok h; exact hs .nil
      | _ => cases h
    · obtain ⟨e, -, h⟩ := Out.bind_ok.1 h
      exact decodeBody_sorted h

end Verif.Hcl
