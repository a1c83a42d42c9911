import Verif.Lemmas.HclStructText
import Verif.Lemmas.HclStructDoc
set_option linter.unusedSimpArgs false
/-! The text of a good struct is a document that shows the struct. -/

namespace Verif.HclS
open Hcl (indent joinB ItemOk NameOk Item IsIdent SafeStr mapText Expr)
open Det (ltB ltB2 KeyTy)

/-! ## Zero values -/

mutual
theorem isZero_iff : ∀ {v : Val}, v.isZero = true ↔ v.Zero
  | .str s => by simp [Val.isZero, Val.Zero]
  | .leaf x => by simp [Val.isZero, Val.Zero]
  | .ref _ _ => by simp [Val.isZero, Val.Zero]
  | .inst _ fs => by simp [Val.isZero, Val.Zero, allZero_iff (fs := fs)]
  | .slice _ => by simp [Val.isZero, Val.Zero]
  | .map _ => by simp [Val.isZero, Val.Zero]
  | .map2 _ => by simp [Val.isZero, Val.Zero]
theorem allZero_iff : ∀ {fs : List (Bytes × Val)}, allZero fs = true ↔ ZeroF fs
  | [] => by simp [allZero, ZeroF]
  | (_, v) :: r => by simp [allZero, ZeroF, isZero_iff (v := v), allZero_iff (fs := r)]
end

theorem isZero_false {v : Val} : v.isZero = false ↔ ¬ v.Zero := by
  rw [← isZero_iff, Bool.not_eq_true]

/-! ## Depth -/

theorem depth_get {fs : Fields} {k : Bytes} {v : Val} (h : GoMap.get? fs k = some v) : v.depth ≤ depthF fs := by
  have hm := GoMap.get?_mem h
  clear h
  induction fs with
  | nil => cases hm
  | cons x fs ih =>
    obtain ⟨k', v'⟩ := x
    simp only [depthF]
    rcases List.mem_cons.1 hm with h | h
    · cases h; omega
    · have := ih h; omega

theorem depth_mem {m : Fields} {x : Bytes × Val} (h : x ∈ m) : x.2.depth ≤ depthF m := by
  induction m with
  | nil => cases h
  | cons y m ih =>
    obtain ⟨k', v'⟩ := y
    simp only [depthF]
    rcases List.mem_cons.1 h with h | h
    · cases h; simp
    · have := ih h; omega

theorem depth_memL {l : List Val} {x : Val} (h : x ∈ l) : x.depth ≤ depthL l := by
  induction l with
  | nil => cases h
  | cons y m ih =>
    simp only [depthL]
    rcases List.mem_cons.1 h with h | h
    · cases h; omega
    · have := ih h; omega

theorem depth_memP {m : List ((Bytes × Bytes) × Val)} {x} (h : x ∈ m) : x.2.depth ≤ depthP m := by
  induction m with
  | nil => cases h
  | cons y m ih =>
    obtain ⟨k', v'⟩ := y
    simp only [depthP]
    rcases List.mem_cons.1 h with h | h
    · cases h; simp
    · have := ih h; omega

/-! ## Lists -/

theorem filter_flatMap {ι : Type} {L : List Fld} (hn : (L.map Fld.tag).Nodup) {g : Fld → List ι} {key : ι → Bytes}
    (hk : ∀ f ∈ L, ∀ x ∈ g f, key x = f.tag) {f : Fld} (hf : f ∈ L) : (L.flatMap g).filter (fun x => key x = f.tag) = g f := by
  induction L with
  | nil => cases hf
  | cons a L ih =>
    simp only [List.map_cons, List.nodup_cons] at hn
    simp only [List.flatMap_cons, List.filter_append]
    have hother : ∀ {h : Fld} {l : List ι}, (∀ x ∈ l, key x = h.tag) → h.tag ≠ f.tag → l.filter (fun x => key x = f.tag) = [] := by
      intro h l hl hne
      rw [List.filter_eq_nil_iff]
      intro x hx
      rw [hl x hx]
      simpa using hne
    by_cases hfa : f = a
    · subst hfa
      have h1 : (g f).filter (fun x => key x = f.tag) = g f := by
        rw [List.filter_eq_self]
        intro x hx
        simpa using hk f (by simp) x hx
      have h2 : (L.flatMap g).filter (fun x => key x = f.tag) = [] := by
        rw [List.filter_eq_nil_iff]
        intro x hx
        obtain ⟨h, hh, hx⟩ := List.mem_flatMap.1 hx
        rw [hk h (by simp [hh]) x hx]
        simp only [decide_eq_true_eq]
        intro e
        exact hn.1 (List.mem_map.2 ⟨h, hh, e⟩)
      rw [h1, h2, List.append_nil]
    · have hf' : f ∈ L := by
        rcases List.mem_cons.1 hf with h | h
        · exact absurd h hfa
        · exact h
      have h1 : (g a).filter (fun x => key x = f.tag) = [] := hother (hk a (by simp)) (by
        intro e
        exact hn.1 (List.mem_map.2 ⟨f, hf', e.symm⟩))
      rw [h1, List.nil_append]
      exact ih hn.2 (fun h hh => hk h (by simp [hh])) hf'

theorem perm_lift {α β : Type} {g : α → β} {ks ks' : List β} (h : ks.Perm ks') : ∀ {m : List α}, m.map g = ks' → ∃ l : List α, l.Perm m ∧ l.map g = ks := by
  induction h with
  | nil => intro m hm; exact ⟨m, .refl _, hm⟩
  | cons x _ ih =>
    intro m hm
    cases m with
    | nil => cases hm
    | cons a m =>
      simp only [List.map_cons, List.cons.injEq] at hm
      obtain ⟨l, h1, h2⟩ := ih hm.2
      exact ⟨a :: l, h1.cons a, by rw [List.map_cons, h2, hm.1]⟩
  | swap x y l =>
    intro m hm
    cases m with
    | nil => cases hm
    | cons a m =>
      cases m with
      | nil => cases hm
      | cons c m =>
        simp only [List.map_cons, List.cons.injEq] at hm
        exact ⟨c :: a :: m, .swap _ _ _, by simp [hm.1, hm.2.1, hm.2.2]⟩
  | trans _ _ ih1 ih2 =>
    intro m hm
    obtain ⟨l, h1, h2⟩ := ih2 hm
    obtain ⟨l', h3, h4⟩ := ih1 h2
    exact ⟨l', h3.trans h1, h4⟩

theorem get?_filter {α : Type} {l : List (Bytes × α)} {k : Bytes} : GoMap.get? l k = ((l.filter fun x => x.1 = k).head?).map Prod.snd := by
  induction l with
  | nil => rfl
  | cons x l ih =>
    obtain ⟨k', v⟩ := x
    by_cases h : k' = k
    · simp [GoMap.get?, h]
    · simp only [GoMap.get?, List.filter_cons] at ih ⊢
      rw [if_neg h, if_neg (by simpa using h)]
      exact ih

theorem forall2_append {α β : Type} {R : α → β → Prop} {a c : List α} {d e : List β} (h1 : List.Forall₂ R a d) (h2 : List.Forall₂ R c e) :
    List.Forall₂ R (a ++ c) (d ++ e) := by
  induction h1 with
  | nil => exact h2
  | cons h _ ih => exact .cons h ih

theorem forall2_flatMap {ι α β : Type} {R : α → β → Prop} {g : ι → List α} {g' : ι → List β} {L : List ι}
    (h : ∀ i ∈ L, List.Forall₂ R (g i) (g' i)) : List.Forall₂ R (L.flatMap g) (L.flatMap g') := by
  induction L with
  | nil => exact .nil
  | cons i L ih =>
    simp only [List.flatMap_cons]
    exact forall2_append (h i (by simp)) (ih fun j hj => h j (by simp [hj]))

theorem forall2_left {α β : Type} {R : α → β → Prop} {l : List α} {l' : List β} (h : List.Forall₂ R l l') {x : α} (hx : x ∈ l) :
    ∃ y ∈ l', R x y := by
  induction h with
  | nil => cases hx
  | cons h _ ih =>
    rcases List.mem_cons.1 hx with rfl | hx
    · exact ⟨_, List.mem_cons_self, h⟩
    · obtain ⟨y, hy, h⟩ := ih hx
      exact ⟨y, by simp [hy], h⟩

/-! ## Items -/

/-- The name of the attribute or block. -/
def itemKey : Item → Bytes
  | .attr k _ => k
  | .block k _ _ => k

theorem attrs_append (a c : List Item) : Item.attrs (a ++ c) = Item.attrs a ++ Item.attrs c := by
  induction a with
  | nil => rfl
  | cons x a ih => cases x <;> simp [Item.attrs, ih]

theorem blocks_append (a c : List Item) : Item.blocks (a ++ c) = Item.blocks a ++ Item.blocks c := by
  induction a with
  | nil => rfl
  | cons x a ih => cases x <;> simp [Item.blocks, ih]

theorem attrs_filter (k : Bytes) (l : List Item) :
    (Item.attrs l).filter (fun x => x.1 = k) = Item.attrs (l.filter fun i => itemKey i = k) := by
  induction l with
  | nil => rfl
  | cons x l ih =>
    cases x with
    | attr k' e => by_cases h : k' = k <;> simp [Item.attrs, itemKey, h, ih]
    | block k' ls x => by_cases h : k' = k <;> simp [Item.attrs, itemKey, h, ih]

theorem blocks_filter (k : Bytes) (l : List Item) :
    (Item.blocks l).filter (fun x => x.1 = k) = Item.blocks (l.filter fun i => itemKey i = k) := by
  induction l with
  | nil => rfl
  | cons x l ih =>
    cases x with
    | attr k' e => by_cases h : k' = k <;> simp [Item.blocks, itemKey, h, ih]
    | block k' ls x => by_cases h : k' = k <;> simp [Item.blocks, itemKey, h, ih]

theorem mem_attrs {l : List Item} {a : Bytes × Expr} (h : a ∈ Item.attrs l) : Item.attr a.1 a.2 ∈ l := by
  induction l with
  | nil => cases h
  | cons x l ih =>
    cases x with
    | attr k e =>
      simp only [Item.attrs, List.mem_cons] at h
      rcases h with rfl | h
      · simp
      · simp [ih h]
    | block => simp only [Item.attrs] at h; simp [ih h]

theorem mem_blocks {l : List Item} {a : Bytes × List Bytes × Hcl.Body} (h : a ∈ Item.blocks l) : Item.block a.1 a.2.1 a.2.2 ∈ l := by
  induction l with
  | nil => cases h
  | cons x l ih =>
    cases x with
    | attr k e => simp only [Item.blocks] at h; simp [ih h]
    | block =>
      simp only [Item.blocks, List.mem_cons] at h
      rcases h with rfl | h
      · simp
      · simp [ih h]

theorem attrs_mem {l : List Item} {k : Bytes} {e : Expr} (h : Item.attr k e ∈ l) : (k, e) ∈ Item.attrs l := by
  induction l with
  | nil => cases h
  | cons x l ih =>
    rcases List.mem_cons.1 h with rfl | h'
    · simp [Item.attrs]
    · cases x <;> simp [Item.attrs, ih h']

theorem blocks_mem {l : List Item} {k ls x} (h : Item.block k ls x ∈ l) : (k, ls, x) ∈ Item.blocks l := by
  induction l with
  | nil => cases h
  | cons y l ih =>
    rcases List.mem_cons.1 h with rfl | h'
    · simp [Item.blocks]
    · cases y <;> simp [Item.blocks, ih h']

/-- How attributes are read. -/
abbrev ReadsA (S : Bytes → Expr → Prop) : List (Bytes × Expr) → List (Bytes × Attr) → Prop := List.Forall₂ fun a a' => a'.1 = a.1 ∧ a'.2.expr = a.2 ∧ S a'.2.src a.2

theorem readsA_filter {k : Bytes} {l l'} (h : ReadsA S l l') : ReadsA S (l.filter fun x => x.1 = k) (l'.filter fun x => x.1 = k) := by
  induction h with
  | nil => exact .nil
  | @cons a a' l l' hab _ ih =>
    by_cases hk : a.1 = k
    · rw [List.filter_cons_of_pos (by simpa using hk), List.filter_cons_of_pos (by simpa [hab.1] using hk)]
      exact .cons hab ih
    · rw [List.filter_cons_of_neg (by simpa using hk), List.filter_cons_of_neg (by simpa [hab.1] using hk)]
      exact ih

theorem readsL_filter {k : Bytes} : ∀ {l l'}, ReadsL S l l' → ReadsL S (l.filter fun x => x.1 = k) (l'.filter fun x => x.1 = k)
  | _, _, .nil => .nil
  | _, _, .cons (k := k') h hr => by
    by_cases hk : k' = k
    · rw [List.filter_cons_of_pos (by simpa using hk), List.filter_cons_of_pos (by simpa using hk)]
      exact .cons h (readsL_filter hr)
    · rw [List.filter_cons_of_neg (by simpa using hk), List.filter_cons_of_neg (by simpa using hk)]
      exact readsL_filter hr

theorem readsL_mem : ∀ {l l' y}, ReadsL S l l' → y ∈ l' → ∃ x ∈ l, x.1 = y.1
  | _, _, _, .nil, h => by cases h
  | _, _, _, .cons h hr, hm => by
    rcases List.mem_cons.1 hm with rfl | hm
    · exact ⟨_, List.mem_cons_self, rfl⟩
    · obtain ⟨x, hx, e⟩ := readsL_mem hr hm
      exact ⟨x, by simp [hx], e⟩

theorem readsA_mem {l l' y} (h : ReadsA S l l') (hy : y ∈ l') : ∃ x ∈ l, x.1 = y.1 := by
  induction h with
  | nil => cases hy
  | cons h _ ih =>
    rcases List.mem_cons.1 hy with rfl | hm
    · exact ⟨_, List.mem_cons_self, h.1.symm⟩
    · obtain ⟨x, hx, e⟩ := ih hm
      exact ⟨x, by simp [hx], e⟩

theorem readsA_keys {l l'} (h : ReadsA S l l') : l'.map Prod.fst = l.map Prod.fst := by
  induction h with
  | nil => rfl
  | cons h _ ih => rw [List.map_cons, List.map_cons, ih, h.1]

/-! ## Blocks -/

/-- The text of a struct as a block at a level: its lines are items that show it. -/
def Rendered (S : Bytes → Expr → Prop) (level : Nat) (labels : List Bytes) (shows : Body → Prop) (t : Bytes) : Prop :=
  ∃ lines es, t = wrapText level labels (bodyText level lines) ∧ List.Forall₂ ItemOk lines es ∧
    ((Item.attrs es).map Prod.fst).Nodup ∧ ∀ body, Reads S (.mk (Item.attrs es) (Item.blocks es)) body → shows body

/-- The recursive call writes structs of at most the given depth. -/
def RecGood (S : Bytes → Expr → Prop) (env : Env) (emb : Nat) (good : Nat → Fields → Prop) (shows : Body → Nat → Fields → Prop) (depth : Nat) (rec : PRec) : Prop :=
  ∀ path level keyname addr c fs, good c fs → depthF fs < depth →
    ∃ t, rec path level keyname addr c fs = .ok t ∧
      Rendered S level (writtenLabels (env.flat emb c) fs keyname.head?) (fun body => shows body c fs) t

/-- The line is the item. -/
def LineIs (o : POut) (i : Item) : Prop := ItemOk (outLine o) i ∧ Tight (outLine o)

theorem wrap_notBlank {level : Nat} (h : level ≠ 0) (labels s) : Tight (wrapText level labels s) := by
  simp only [wrapText, if_neg h]
  exact ⟨labelText labels ++ b "{\n" ++ s ++ 10 :: indent level, 125, rfl, rfl⟩

/-- The line of a block. -/
theorem rendered_line {level : Nat} {f : Fld} {keys labels : List Bytes} {shows : Body → Prop} {t : Bytes} (ht : IsIdent f.tag)
    (hs : ∀ l ∈ keys ++ labels, SafeStr l) (h : Rendered S (level + 1) labels shows t) :
    outOf f keys false t = [⟨f.tag, keys, t, false⟩] ∧ ∃ doc, LineIs ⟨f.tag, keys, t, false⟩ (.block f.tag (keys ++ labels) doc) ∧
      ∀ body, Reads S doc body → shows body := by
  obtain ⟨lines, es, rfl, h1, h2, h3⟩ := h
  refine ⟨?_, .mk (Item.attrs es) (Item.blocks es), ⟨?_, ?_⟩, h3⟩
  · rw [outOf, (wrap_notBlank (by omega) _ _).notBlank]; rfl
  · have := block_item (level := level + 1) (by omega) ht hs h1 h2
    rw [labelText_append] at this
    have e : outLine ⟨f.tag, keys, wrapText (level + 1) labels (bodyText (level + 1) lines), false⟩ =
        f.tag ++ 32 :: (labelText keys ++ labelText labels) ++ (b "{\n" ++ bodyText (level + 1) lines ++ 10 :: indent (level + 1) ++ b "}") := by
      simp [outLine, wrapText]
    rw [e]
    exact this
  · have := (wrap_notBlank (level := level + 1) (by omega) labels (bodyText (level + 1) lines)).append
      (f.tag ++ 32 :: [] ++ labelText keys)
    exact this

section
variable {env : Env} {emb : Nat} {pe : PExt} {good : Nat → Fields → Prop} {shows : Body → Nat → Fields → Prop} {depth : Nat} {rec : PRec}
  (hrec : RecGood S env emb good shows depth rec)
include hrec

/-- A value that is written as a block. -/
theorem blockVal_line {path level keys ety v} {f : Fld} (ht : IsIdent f.tag) (hv : BlockVal env emb good keys ety v) (hd : v.depth ≤ depth) :
    ∃ c fs, Holds env ety c fs v ∧ ∀ addr, ∃ t doc, rec path (level + 1) keys addr c fs = .ok t ∧
      outOf f keys false t = [⟨f.tag, keys, t, false⟩] ∧
      LineIs ⟨f.tag, keys, t, false⟩ (.block f.tag (keys ++ writtenLabels (env.flat emb c) fs keys.head?) doc) ∧
      ∀ body, Reads S doc body → BlockShows env emb shows ety (keys ++ writtenLabels (env.flat emb c) fs keys.head?, body) v := by
  obtain ⟨c, fs, h1, h2, h3, h4, h5⟩ := hv
  have hdep : depthF fs < depth := by
    cases h2 <;> simp [Val.depth] at hd <;> omega
  refine ⟨c, fs, h2, fun addr => ?_⟩
  obtain ⟨t, h6, h7⟩ := hrec path (level + 1) keys addr c fs h3 hdep
  obtain ⟨h8, doc, h9, h10⟩ := rendered_line ht h4 h7
  exact ⟨t, doc, h6, h8, h9, fun body hb => ⟨c, fs, h1, h2, h10 body hb, h5⟩⟩

theorem levelText_line {path level ety v} {f : Fld} (ht : IsIdent f.tag) (hz : v.isZero = false)
    (hv : BlockVal env emb good [] ety v) (hd : v.depth ≤ depth) :
    ∃ t labels doc, levelText pe rec path (level + 1) ety v = .ok t ∧ outOf f [] false t = [⟨f.tag, [], t, false⟩] ∧
      LineIs ⟨f.tag, [], t, false⟩ (.block f.tag labels doc) ∧ ∀ body, Reads S doc body → BlockShows env emb shows ety (labels, body) v := by
  obtain ⟨c, fs, h1, h3⟩ := blockVal_line hrec (path := path) (level := level) ht hv hd
  have main : ∀ addr, levelText pe rec path (level + 1) ety v = rec path (level + 1) [] addr c fs →
      ∃ t labels doc, levelText pe rec path (level + 1) ety v = .ok t ∧ outOf f [] false t = [⟨f.tag, [], t, false⟩] ∧
      LineIs ⟨f.tag, [], t, false⟩ (.block f.tag labels doc) ∧ ∀ body, Reads S doc body → BlockShows env emb shows ety (labels, body) v := by
    intro addr he
    obtain ⟨t, doc, h4, h5, h6, h7⟩ := h3 addr
    exact ⟨t, _, doc, he.trans h4, h5, h6, h7⟩
  cases h1 with
  | struct => exact main false (by simp only [levelText, hz, Bool.false_eq_true, if_false])
  | _ => exact main true (by simp only [levelText, hz, Bool.false_eq_true, if_false])

theorem elemText_line {path level keys ety v} {f : Fld} (ht : IsIdent f.tag)
    (hv : BlockVal env emb good keys ety v) (hd : v.depth ≤ depth) :
    ∃ t c fs doc, elemText env pe rec path (level + 1) keys ety v = .ok t ∧ outOf f keys false t = [⟨f.tag, keys, t, false⟩] ∧ Holds env ety c fs v ∧
      LineIs ⟨f.tag, keys, t, false⟩ (.block f.tag (keys ++ writtenLabels (env.flat emb c) fs keys.head?) doc) ∧
      ∀ body, Reads S doc body → BlockShows env emb shows ety (keys ++ writtenLabels (env.flat emb c) fs keys.head?, body) v := by
  obtain ⟨c, fs, h1, h3⟩ := blockVal_line hrec (path := path) (level := level) ht hv hd
  cases h1 with
  | struct =>
    obtain ⟨t, doc, h4, h5, h6, h7⟩ := h3 false
    exact ⟨t, _, _, doc, h4, h5, .struct, h6, h7⟩
  | ptr =>
    obtain ⟨t, doc, h4, h5, h6, h7⟩ := h3 true
    exact ⟨t, _, _, doc, h4, h5, .ptr, h6, h7⟩
  | any =>
    obtain ⟨t, doc, h4, h5, h6, h7⟩ := h3 true
    exact ⟨t, _, _, doc, h4, h5, .any, h6, h7⟩
  | iface hi =>
    obtain ⟨t, doc, h4, h5, h6, h7⟩ := h3 true
    exact ⟨t, _, _, doc, h4, h5, .iface hi, h6, h7⟩

/-- The lines of a field for blocks, and what they mean. -/
structure Lines (S : Bytes → Expr → Prop) (os : List POut) (io : List Item) (tag : Bytes) (meaning : List (List Bytes × Body) → Prop) : Prop where
  lines : List.Forall₂ LineIs os io
  keys : ∀ i ∈ io, itemKey i = tag
  attrs : Item.attrs io = []
  means : ∀ bl, ReadsL S (Item.blocks io) bl → meaning (bl.map Prod.snd)

omit hrec in
theorem Lines.nil {tag : Bytes} {meaning : List (List Bytes × Body) → Prop} (h : meaning []) : Lines S [] [] tag meaning :=
  ⟨.nil, by simp, rfl, fun bl hb => by cases hb; exact h⟩

omit hrec in
theorem Lines.cons {o : POut} {os io tag labels doc} {m m' : List (List Bytes × Body) → Prop} (ho : LineIs o (.block tag labels doc))
    (h : Lines S os io tag m) (hm : ∀ body bl, Reads S doc body → m bl → m' ((labels, body) :: bl)) :
    Lines S (o :: os) (.block tag labels doc :: io) tag m' := by
  refine ⟨.cons ho h.lines, ?_, ?_, ?_⟩
  · intro i hi
    rcases List.mem_cons.1 hi with rfl | hi
    · rfl
    · exact h.keys i hi
  · simpa [Item.attrs] using h.attrs
  · intro bl hb
    simp only [Item.blocks] at hb
    cases hb with
    | cons h1 h2 => exact hm _ _ h1 (h.means _ h2)

theorem sliceOuts_lines {path level ety} {f : Fld} (ht : IsIdent f.tag) :
    ∀ {l : List Val}, (∀ x ∈ l, (¬ x.Zero ∧ BlockVal env emb good [] ety x) ∧ x.depth ≤ depth) →
    ∃ os io, sliceOuts pe rec path level f ety l = .ok os ∧ Lines S os io f.tag (fun bl => List.Forall₂ (BlockShows env emb shows ety) bl l)
  | [], _ => ⟨[], [], rfl, .nil .nil⟩
  | v :: l, h => by
    obtain ⟨⟨hz, hv⟩, hd⟩ := h v (by simp)
    obtain ⟨t, labels, doc, h1, h2, h3, h4⟩ :=
      levelText_line hrec (pe := pe) (path := path ++ [f.name, List.replicate l.length 0]) (level := level) ht (isZero_false.2 hz) hv hd
    obtain ⟨os, io, h5, h6⟩ := sliceOuts_lines (path := path) (level := level) (ety := ety) ht (l := l) (fun x hx => h x (by simp [hx]))
    refine ⟨_, _, ?_, Lines.cons h3 h6 fun body bl hb hbl => .cons (h4 body hb) hbl⟩
    simp only [sliceOuts, h1, h5, h2, Except.map]
    rfl

theorem mapOuts_lines {κ : Type} [DecidableEq κ] {path level ety} {f : Fld} (ht : IsIdent f.tag) {labelsOf : κ → List Bytes} {m : List (κ × Val)} :
    ∀ {l : List (κ × Val)}, (∀ x ∈ l, GoMap.get? m x.1 = some x.2 ∧ BlockVal env emb good (labelsOf x.1) ety x.2 ∧ x.2.depth ≤ depth) →
    ∃ os io, mapOuts env pe rec path level f ety labelsOf m (l.map Prod.fst) = .ok os ∧
      Lines S os io f.tag (fun bl => List.Forall₂ (fun blk x => BlockShows env emb shows ety blk x.2 ∧
        ∃ c fs, Holds env ety c fs x.2 ∧ blk.1 = labelsOf x.1 ++ writtenLabels (env.flat emb c) fs (labelsOf x.1).head?) bl l)
  | [], _ => ⟨[], [], rfl, .nil .nil⟩
  | (k, v) :: l, h => by
    obtain ⟨hg, hv, hd⟩ := h (k, v) (by simp)
    obtain ⟨t, c, fs, doc, h1, h2, h0, h3, h4⟩ :=
      elemText_line hrec (pe := pe) (path := path ++ f.name :: labelsOf k) (level := level) ht hv hd
    obtain ⟨os, io, h5, h6⟩ := mapOuts_lines (path := path) (level := level) (ety := ety) (labelsOf := labelsOf) (m := m) ht (l := l) (fun x hx => h x (by simp [hx]))
    refine ⟨_, _, ?_, Lines.cons h3 h6 fun body bl hb hbl => .cons ⟨h4 body hb, c, fs, h0, rfl⟩ hbl⟩
    simp only [List.map_cons, mapOuts, hg, h1, h5, h2, Except.map]
    rfl

omit hrec in
theorem sorted_get {κ α : Type} [DecidableEq κ] {lt : κ → κ → Bool} (hl : Det.LinLt lt) {m : List (κ × α)}
    (h : m.Pairwise fun x y => lt x.1 y.1 = true) {x : κ × α} (hx : x ∈ m) : GoMap.get? m x.1 = some x.2 := by
  refine GoMap.mem_get? ?_ hx
  have h' : (m.map Prod.fst).Pairwise fun x y => lt x y = true := List.pairwise_map.2 h
  refine h'.imp ?_
  intro a c hac e
  subst e
  exact absurd hac (by simp [hl.irrefl])

theorem slice_lines {path level ety} {f : Fld} {v : Val} (ht : IsIdent f.tag)
    (hv : ∃ l, l ≠ [] ∧ v = .slice l ∧ ∀ x ∈ l, ¬ x.Zero ∧ BlockVal env emb good [] ety x) (hd : v.depth ≤ depth) :
    ∃ x l os io, v = .slice (x :: l) ∧ sliceOuts pe rec path level f ety (x :: l) = .ok os ∧
      Lines S os io f.tag (fun bl => bl ≠ [] ∧ ∃ l, v = .slice l ∧ List.Forall₂ (BlockShows env emb shows ety) bl l) := by
  obtain ⟨l, hne, rfl, hl⟩ := hv
  cases l with
  | nil => exact absurd rfl hne
  | cons x l =>
    obtain ⟨os, io, h1, h2⟩ := sliceOuts_lines hrec (pe := pe) (path := path) (level := level) ht (l := x :: l)
      (fun y hy => ⟨hl y hy, Nat.le_trans (depth_memL hy) hd⟩)
    refine ⟨x, l, os, io, rfl, h1, ⟨h2.lines, h2.keys, h2.attrs, fun bl hb => ?_⟩⟩
    have := h2.means bl hb
    exact ⟨fun e => (by rw [e] at this; cases this), _, rfl, this⟩

theorem map_lines {κ : Type} [DecidableEq κ] {path level ety} {f : Fld} (ht : IsIdent f.tag) {labelsOf : κ → List Bytes} {m : List (κ × Val)}
    {lt : κ → κ → Bool} (hlt : Det.LinLt lt) (hs : m.Pairwise fun x y => lt x.1 y.1 = true) (hne : m ≠ [])
    (hm : ∀ x ∈ m, BlockVal env emb good (labelsOf x.1) ety x.2 ∧ x.2.depth ≤ depth) {ks : List κ} (hp : ks.Perm (GoMap.keys m)) :
    ∃ os io, mapOuts env pe rec path level f ety labelsOf m ks = .ok os ∧
      Lines S os io f.tag (fun bl => bl ≠ [] ∧ ∃ l, l.Perm m ∧ List.Forall₂ (fun blk x => BlockShows env emb shows ety blk x.2 ∧
        ∃ c fs, Holds env ety c fs x.2 ∧ blk.1 = labelsOf x.1 ++ writtenLabels (env.flat emb c) fs (labelsOf x.1).head?) bl l) := by
  obtain ⟨l, h1, rfl⟩ := perm_lift (g := Prod.fst) hp rfl
  obtain ⟨os, io, h2, h3⟩ := mapOuts_lines hrec (pe := pe) (path := path) (level := level) (m := m) ht (l := l) (labelsOf := labelsOf) (ety := ety)
    (fun x hx => ⟨sorted_get hlt hs (h1.mem_iff.1 hx), hm x (h1.mem_iff.1 hx)⟩)
  refine ⟨os, io, h2, ⟨h3.lines, h3.keys, h3.attrs, fun bl hb => ?_⟩⟩
  have := h3.means bl hb
  refine ⟨?_, l, h1, this⟩
  intro e
  rw [e] at this
  cases this
  exact hne (List.nil_perm.1 h1)

/-- The lines of a field for blocks. -/
theorem outlier_lines {ext : Ext} (hz : ZeroOk ext) (hpo : ∀ p l, (pe.ord p l).Perm l) (hpo2 : ∀ p l, (pe.ord2 p l).Perm l)
    {path level addr} {f : Fld} {v : Val} (ht : IsIdent f.tag) (hb : f.ty.isBlock = true) (hv : BlockGood env emb ext good f.ty v)
    (hd : v.depth ≤ depth) :
    ∃ os io, outlier env pe rec path level addr f v = .ok os ∧ Lines S os io f.tag (fun bl => BlocksShow env emb ext shows f.ty bl v) := by
  have hnil : ∀ {ty : Ty}, ext.zero ty = .leaf 0 → Lines S [] [] f.tag (fun bl => BlocksShow env emb ext shows ty bl (.leaf 0)) :=
    fun h => .nil (Or.inl ⟨rfl, h.symm⟩)
  have hslice : ∀ e c, f.ty = .slice e → e.structOf = some c → (∀ x, isLoop e x = true) →
      ∃ os io, outlier env pe rec path level addr f v = .ok os ∧ Lines S os io f.tag (fun bl => BlocksShow env emb ext shows f.ty bl v) := by
    intro e c hty _ hloop
    rw [hty] at hv ⊢
    rcases hv with rfl | hv
    · exact ⟨[], [], by simp only [outlier, hty, Ty.coll], hnil (hz.slice _)⟩
    · obtain ⟨x, l, os, io, rfl, h1, h2⟩ := slice_lines hrec (pe := pe) (path := path) (level := level) ht hv hd
      refine ⟨os, io, by simp only [outlier, hty, Ty.coll, hloop, if_true, h1], ⟨h2.lines, h2.keys, h2.attrs, fun bl hb => ?_⟩⟩
      exact Or.inr (h2.means bl hb)
  have hmap : ∀ e c, f.ty = .map .str e → e.structOf = some c → (∀ x, isLoop e x = true) →
      ∃ os io, outlier env pe rec path level addr f v = .ok os ∧ Lines S os io f.tag (fun bl => BlocksShow env emb ext shows f.ty bl v) := by
    intro e c hty _ hloop
    rw [hty] at hv ⊢
    rcases hv with rfl | ⟨m, hne, rfl, hs, hm⟩
    · exact ⟨[], [], by simp only [outlier, hty, Ty.coll], hnil (hz.map _ _)⟩
    · obtain ⟨os, io, h1, h2⟩ := map_lines hrec (pe := pe) (path := path) (level := level) (labelsOf := fun k => [k]) ht Det.ltB_lin hs hne
        (fun x hx => ⟨hm x hx, Nat.le_trans (depth_mem hx) hd⟩) (hpo (path ++ [f.name]) (GoMap.keys m))
      refine ⟨os, io, ?_, ⟨h2.lines, h2.keys, h2.attrs, fun bl hb => ?_⟩⟩
      · cases m with
        | nil => exact absurd rfl hne
        | cons y m => simp only [outlier, hty, Ty.coll, hloop, if_true, h1]
      · obtain ⟨h3, l, h4, h5⟩ := h2.means bl hb
        refine Or.inr ⟨h3, m, l, rfl, hs, h4, h5.imp ?_⟩
        rintro blk x ⟨h6, c, fs, _, h7⟩
        exact ⟨by rw [h7]; rfl, h6⟩
  have hmap2 : ∀ e c, f.ty = .map .str2 e → e.structOf = some c → (∀ x, isLoop e x = true) →
      ∃ os io, outlier env pe rec path level addr f v = .ok os ∧ Lines S os io f.tag (fun bl => BlocksShow env emb ext shows f.ty bl v) := by
    intro e c hty hec hloop
    rw [hty] at hv ⊢
    rcases hv with rfl | ⟨m, hne, rfl, hs, hm⟩
    · exact ⟨[], [], by simp only [outlier, hty, Ty.coll], hnil (hz.map _ _)⟩
    · obtain ⟨os, io, h1, h2⟩ := map_lines hrec (pe := pe) (path := path) (level := level) (labelsOf := pairLabels) ht Det.ltB2_lin hs hne
        (fun x hx => ⟨(hm x hx).2.1, Nat.le_trans (depth_memP hx) hd⟩) (hpo2 (path ++ [f.name]) (GoMap.keys m))
      refine ⟨os, io, ?_, ⟨h2.lines, h2.keys, h2.attrs, fun bl hb => ?_⟩⟩
      · cases m with
        | nil => exact absurd rfl hne
        | cons y m => simp only [outlier, hty, Ty.coll, hloop, if_true, h1]
      · obtain ⟨h3, l, h4, h5⟩ := h2.means bl hb
        refine Or.inr ⟨h3, m, l, rfl, hs, h4, ?_⟩
        have h5' : List.Forall₂ (fun blk x => (BlockShows env emb shows e blk x.2 ∧
            ∃ c fs, Holds env e c fs x.2 ∧ blk.1 = pairLabels x.1 ++ writtenLabels (env.flat emb c) fs (pairLabels x.1).head?) ∧ x ∈ l) (bl.map Prod.snd) l := by
          refine List.forall₂_iff_get.2 ⟨h5.length_eq, fun i hi hi' => ⟨?_, List.get_mem _ _⟩⟩
          exact (List.forall₂_iff_get.1 h5).2 i hi hi'
        refine h5'.imp ?_
        rintro blk x ⟨⟨h6, c', fs, h8, h7⟩, hx⟩
        obtain ⟨h9, _, h10⟩ := hm x (h4.mem_iff.1 hx)
        obtain ⟨h11, h12⟩ := h10 c' fs h8
        refine ⟨⟨h9, ?_⟩, h6⟩
        have hh : (pairLabels x.1).head? = some x.1.1 := by simp [pairLabels, h9]
        rw [hh, h11, List.append_nil] at h7
        by_cases h13 : x.1.2 = []
        · refine Or.inr ⟨h13, ?_, fun c'' hc'' => ?_⟩
          · rw [h7]; simp [pairLabels, h9, h13]
          · have := h8.cls hc''
            subst this
            exact h12 h13
        · exact Or.inl ⟨h13, by rw [h7]; simp [pairLabels, h9, h13]⟩
  match hty : f.ty, hb with
  | .struct c, _ =>
    rw [hty] at hv
    obtain ⟨hz0, hv⟩ := hv
    obtain ⟨c', fs, h1, h3⟩ := blockVal_line hrec (path := path ++ [f.name]) (level := level) ht hv hd
    cases h1
    cases haddr : addr with
    | true =>
      obtain ⟨t, doc, h4, h5, h6, h7⟩ := h3 true
      refine ⟨_, _, by simp only [outlier, hty, Ty.coll, if_true, h4, Except.map, h5], Lines.cons h6 (.nil (meaning := fun bl => bl = []) rfl) ?_⟩
      rintro body bl hb rfl
      exact Or.inr ⟨by simp, _, rfl, h7 body hb⟩
    | false =>
      cases hzv : (Val.inst c fs).isZero with
      | true =>
        refine ⟨[], [], ?_, .nil (Or.inl ⟨rfl, hz0 (isZero_iff.1 hzv)⟩)⟩
        simp only [outlier, hty, Ty.coll, Bool.false_eq_true, if_false, levelText, hzv, if_true, Except.map]
        rfl
      | false =>
        obtain ⟨t, doc, h4, h5, h6, h7⟩ := h3 false
        refine ⟨_, _, by simp only [outlier, hty, Ty.coll, Bool.false_eq_true, if_false, levelText, hzv, h4, Except.map, h5],
          Lines.cons h6 (.nil (meaning := fun bl => bl = []) rfl) ?_⟩
        rintro body bl hb rfl
        exact Or.inr ⟨by simp, _, rfl, h7 body hb⟩
  | .ptr (.struct c), _ =>
    rw [hty] at hv
    rcases hv with rfl | hv
    · refine ⟨[], [], ?_, hnil (hz.ptr _)⟩
      simp only [outlier, hty, Ty.coll, levelText, Val.isZero, decide_true, if_true, Except.map]
      rfl
    · have hzv : v.isZero = false := by
        obtain ⟨c', fs, _, h2, _⟩ := hv
        cases h2
        rfl
      obtain ⟨t, labels, doc, h4, h5, h6, h7⟩ := levelText_line hrec (pe := pe) (path := path ++ [f.name]) (level := level) ht hzv hv hd
      refine ⟨_, _, by simp only [outlier, hty, Ty.coll, h4, Except.map, h5], Lines.cons h6 (.nil (meaning := fun bl => bl = []) rfl) ?_⟩
      rintro body bl hb rfl
      exact Or.inr ⟨by simp, _, rfl, h7 body hb⟩
  | .slice (.struct c), _ => exact hty ▸ hslice _ c hty rfl fun _ => rfl
  | .slice (.ptr (.struct c)), _ => exact hty ▸ hslice _ c hty rfl fun _ => rfl
  | .map .str (.struct c), _ => exact hty ▸ hmap _ c hty rfl fun _ => rfl
  | .map .str (.ptr (.struct c)), _ => exact hty ▸ hmap _ c hty rfl fun _ => rfl
  | .map .str2 (.struct c), _ => exact hty ▸ hmap2 _ c hty rfl fun _ => rfl
  | .map .str2 (.ptr (.struct c)), _ => exact hty ▸ hmap2 _ c hty rfl fun _ => rfl

end

/-! ## Fields -/

theorem ident_dash {k : Bytes} (h : IsIdent k) : ¬ (k = b "-" ∨ (b ",-").isSuffixOf k = true) := by
  rintro (rfl | h')
  · have q : b "-" = [45] := rfl
    rw [q] at h
    have := h.1
    revert this
    decide
  · obtain ⟨s, rfl⟩ := List.isSuffixOf_iff_suffix.1 h'
    have q : b ",-" = [44, 45] := rfl
    rw [q] at h
    cases s with
    | nil => simp [IsIdent] at h; revert h; decide
    | cons c s =>
      have := h.2 44 (by simp)
      revert this
      decide

theorem ident_ne {k : Bytes} (h : IsIdent k) : k ≠ [] := by
  rintro rfl
  exact h

theorem ident_line {k : Bytes} (h : IsIdent k) : 10 ∉ k := by
  cases k with
  | nil => simp
  | cons c r =>
    intro hm
    rcases List.mem_cons.1 hm with rfl | hm
    · have := h.1; revert this; decide
    · have := h.2 _ hm; revert this; decide

theorem withTag_id {f : Fld} (h : f.tag ≠ []) (p : Bool) : withTag f p = f := by simp [withTag, h]

/-- The labels that a field is written as. -/
def partLabels (f : Fld) (v : Option Val) (key : Option Bytes) : List Bytes :=
  if lower f.what = b "label" then
    (match v with
      | some (.str s) => if s ≠ [] ∧ key ≠ some s then [s] else []
      | _ => [])
  else []

theorem writtenLabels_eq (d : StructDecl) (fs : Fields) (key : Option Bytes) :
    writtenLabels d fs key = d.fields.flatMap fun f => partLabels f (GoMap.get? fs f.name) key := by
  unfold writtenLabels ownLabels
  generalize d.fields = L
  induction L with
  | nil => rfl
  | cons f L ih =>
    rw [List.flatMap_cons, ← ih]
    by_cases h : lower f.what = b "label"
    · simp only [List.filter_cons, h, decide_true, if_true, partLabels, List.filterMap_cons]
      cases hg : GoMap.get? fs f.name with
      | none => rfl
      | some v =>
        cases v with
        | str s =>
          simp only [List.filter_cons, decide_eq_true_eq]
          split <;> rfl
        | _ => rfl
    · simp only [List.filter_cons, h, decide_false, Bool.false_eq_true, if_false, partLabels, List.nil_append]

/-- The line of an attribute that `gohcl` writes. -/
def plainLine (pe : PExt) (lead : Bytes) (pad : Bytes → Nat) (p : PFld) : Bytes :=
  indentLines lead (attrLine' pad (p.fld.tag, pe.expr p.fld p.val))

/-- What a field is written as; `A` and `B` say that it is given by an attribute or by blocks, `Q` what a document shows for it. -/
structure Part (S : Bytes → Expr → Prop) (env : Env) (pe : PExt) (rec : PRec) (path : List Bytes) (level : Nat) (addr : Bool)
    (keyname : List Bytes) (f : Fld) (v : Val) (A B : Prop) (Q : Body → Prop) (ia : List Item) (os : List POut) (io : List Item) : Prop where
  len : (fieldEntry f v).length ≤ 1
  fld : ∀ p ∈ fieldEntry f v, p.fld = f
  collect : collect env pe rec path level addr keyname (fieldEntry f v) = .ok (os, partLabels f (some v) keyname.head?)
  plain : ∀ pad, List.Forall₂ (fun p i => ItemOk (plainLine pe (indent (level + 1)) pad p) i ∧ Tight (plainLine pe (indent (level + 1)) pad p))
    (plainOf (fieldEntry f v)) ia
  supp : ∀ p ∈ plainOf (fieldEntry f v), supported p.fld = true
  outs : List.Forall₂ LineIs os io
  keys : ∀ i ∈ ia ++ io, itemKey i = f.tag
  one : (Item.attrs (ia ++ io)).length ≤ 1
  attrs : Item.attrs (ia ++ io) ≠ [] → A
  blocks : Item.blocks (ia ++ io) ≠ [] → B
  shows : ∀ body : Body, ReadsA S (Item.attrs (ia ++ io)) (body.attrs.filter fun x => x.1 = f.tag) →
    ReadsL S (Item.blocks (ia ++ io)) (body.blocks.filter fun x => x.1 = f.tag) → Q body

/-- The same for structs without specification. -/
abbrev PartS (S : Bytes → Expr → Prop) (env : Env) (emb : Nat) (pe : PExt) (ext : Ext) (shows : Body → Nat → Fields → Prop) (rec : PRec) (path : List Bytes) (level : Nat)
    (addr : Bool) (keyname : List Bytes) (f : Fld) (v : Val) : List Item → List POut → List Item → Prop :=
  Part S env pe rec path level addr keyname f v (PlainFld f) (BlockFld f) fun body => FieldShows env emb ext shows body f v

theorem plain_not_block {t : Ty} (h : t.isPlain = true) : t.isBlock = false := by
  unfold Ty.isBlock
  split <;> first | rfl | simp [Ty.isPlain] at h

theorem plain_coll {t : Ty} (h : t.isPlain = true) : t.coll = t := by
  cases t with
  | ptr t => cases t <;> first | rfl | cases h
  | _ => rfl

theorem not_label_block {f : Fld} (h : LabelFld f) : ¬ BlockFld f := fun h' => h'.decodes.notLabel h.what
theorem not_label_plain {f : Fld} (h : LabelFld f) : ¬ PlainFld f := fun h' => h'.decodes.notLabel h.what
theorem not_plain_block {f : Fld} (h : PlainFld f) : ¬ BlockFld f := fun h' => by
  have := plain_not_block h.ty
  rw [h'.ty] at this
  cases this

section
variable {env : Env} {emb : Nat} {pe : PExt} {ext : Ext} {good : Nat → Fields → Prop} {shows : Body → Nat → Fields → Prop} {depth : Nat} {rec : PRec}
  {path : List Bytes} {level : Nat} {addr : Bool} {keyname : List Bytes} {f : Fld} {v : Val}

theorem part_label (h : LabelFld f) (ht : IsIdent f.tag) (hw : f.what = b "label") (hv : ∃ s, v = .str s) :
    PartS S env emb pe ext shows rec path level addr keyname f v [] [] [] := by
  obtain ⟨s, rfl⟩ := hv
  have hx : fieldEntry f (.str s) = if s = [] then [] else [⟨f, .str s, false⟩] := by
    simp only [fieldEntry, h.ty, Ty.coll, passOf, Val.isZero, withTag_id (ident_ne ht)]
    cases s <;> simp
  have hl : plainOf (if s = [] then [] else [⟨f, .str s, false⟩]) = [] := by
    split
    · rfl
    · simp [plainOf, hw]
  refine ⟨?_, ?_, ?_, ?_, ?_, .nil, by simp, by simp [Item.attrs], by simp [Item.attrs], by simp [Item.blocks], ?_⟩
  · rw [hx]; split <;> simp
  · rw [hx]; split <;> simp
  · rw [hx]
    simp only [partLabels, h.what, if_true]
    by_cases hs : s = []
    · simp [hs, collect]
    · rw [if_neg hs]
      simp only [collect, Bool.false_eq_true, if_false, hw, if_true, h.ty, Except.map]
      by_cases hk : keyname.head? = some s
      · simp [hk]
      · simp [hk, hs]
  · intro pad; rw [hx, hl]; exact .nil
  · rw [hx, hl]; simp
  · intro body _ _
    exact ⟨fun _ => ⟨s, rfl⟩, fun h' => absurd h' (not_label_plain h), fun h' => absurd h' (not_label_block h)⟩

theorem part_block (hrec : RecGood S env emb good shows depth rec) (hz : ZeroOk ext)
    (hpo : ∀ p l, (pe.ord p l).Perm l) (hpo2 : ∀ p l, (pe.ord2 p l).Perm l)
    (h : BlockFld f) (ht : IsIdent f.tag) (hv : BlockGood env emb ext good f.ty v) (hd : v.depth ≤ depth) :
    ∃ os io, PartS S env emb pe ext shows rec path level addr keyname f v [] os io := by
  obtain ⟨os, io, h1, h2⟩ := outlier_lines hrec hz hpo hpo2 (path := path) (level := level) (addr := addr) ht h.ty hv hd
  have hx : fieldEntry f v = [⟨f, v, true⟩] := by
    have hb := h.ty
    have e1 : f.ty.coll = f.ty := by
      unfold Ty.isBlock at hb
      split at hb <;> first | (rename_i heq; rw [heq]; rfl) | (rename_i heq _; rw [heq]; rfl) | cases hb
    have e2 : passOf f.ty v = some true := by
      unfold Ty.isBlock at hb
      split at hb <;> first | (rename_i heq; rw [heq]; simp [passOf, Ty.isComposite]) | (rename_i heq _; rw [heq]; simp [passOf, Ty.isComposite]) | cases hb
    simp [fieldEntry, e1, e2, withTag_id (ident_ne ht)]
  refine ⟨os, io, ?_, ?_, ?_, ?_, ?_, h2.lines, by simpa using h2.keys, by simp [h2.attrs], by simp [h2.attrs], fun _ => h, ?_⟩
  · simp [hx]
  · simp [hx]
  · rw [hx]
    simp only [collect, if_true, h1, Except.map, List.append_nil, partLabels, if_neg h.decodes.notLabel]
  · intro pad
    rw [hx]
    exact .nil
  · rw [hx]
    simp [plainOf]
  · intro body _ hb
    exact ⟨fun h' => absurd h (not_label_block h'), fun h' => absurd h (not_plain_block h'), fun _ => h2.means _ hb⟩

/-- An attribute that `gohcl` writes. -/
theorem part_leaf (h : PlainFld f) (ht : IsIdent f.tag) (hx : fieldEntry f v = [⟨f, v, false⟩]) {e : Expr} {cv}
    (hl : Lit e) (he : evalE ext [] e = .ok cv) (hn : cv ≠ .null) (hd : ext.leaf f cv = .ok v)
    (hte : TextIs (indentLines (indent (level + 1)) (pe.expr f v)) e) :
    PartS S env emb pe ext shows rec path level addr keyname f v [.attr f.tag e] [] [] := by
  have hnl : f.what ≠ b "label" := by
    rintro e
    refine h.decodes.notLabel ?_
    rw [e]
    rfl
  have hp : plainOf (fieldEntry f v) = [⟨f, v, false⟩] := by rw [hx]; simp [plainOf, hnl]
  refine ⟨by simp [hx], by simp [hx], ?_, ?_, ?_, .nil, by simp [itemKey], by simp [Item.attrs], fun _ => h, by simp [Item.blocks], ?_⟩
  · rw [hx]
    simp only [collect, Bool.false_eq_true, if_false, hnl, partLabels, if_neg h.decodes.notLabel, plain_coll h.ty, ne_eq, not_true]
  · intro pad
    rw [hp]
    have e1 : plainLine pe (indent (level + 1)) pad ⟨f, v, false⟩ =
        f.tag ++ List.replicate (pad f.tag) 32 ++ (b " = " ++ indentLines (indent (level + 1)) (pe.expr f v)) := by
      simp only [plainLine, attrLine', indentLines_append]
      rw [indentLines_id _ (ident_line ht), indentLines_id (s := List.replicate (pad f.tag) 32), indentLines_id (s := b " = ")]
      · decide
      · intro hm
        exact absurd (List.eq_of_mem_replicate hm) (by decide)
    refine .cons ⟨?_, ?_⟩ .nil
    · rw [e1]
      exact ItemOk.padded _ (NameOk.ident ht) hte.expr
    · rw [e1]
      exact (Tight.append (hte.last) (b " = ")).append _
  · rw [hp]
    intro p hm
    rw [List.mem_singleton.1 hm]
    rcases h.what with h | h | h <;> simp [supported, h]
  · intro body ha _
    refine ⟨fun h' => absurd h (not_label_plain h'), fun _ => ?_, fun h' => absurd h' (not_plain_block h)⟩
    simp only [List.append_nil, Item.attrs] at ha
    unfold AttrShows
    rw [get?_filter]
    generalize body.attrs.filter (fun x => x.1 = f.tag) = l at ha ⊢
    cases ha with
    | cons h1 h2 =>
      simp only [List.head?_cons, Option.map_some]
      rw [h1.2.1]
      exact ⟨hl, cv, he, hn, hd⟩

/-- An attribute that is written by `getOutlier`. -/
theorem part_out (h : PlainFld f) (ht : IsIdent f.tag) (hx : fieldEntry f v = [⟨f, v, true⟩]) {e : Expr} {cv} {t : Bytes} {o : POut} {n : Nat}
    (hl : Lit e) (he : evalE ext [] e = .ok cv) (hn : cv ≠ .null) (hd : ext.leaf f cv = .ok v)
    (hte : TextIs t e) (e1 : outLine o = f.tag ++ List.replicate n 32 ++ (b " = " ++ t))
    (ho : outlier env pe rec path level addr f v = .ok [o]) :
    PartS S env emb pe ext shows rec path level addr keyname f v [] [o] [.attr f.tag e] := by
  refine ⟨by simp [hx], by simp [hx], ?_, ?_, ?_, ?_, by simp [itemKey], by simp [Item.attrs], fun _ => h, by simp [Item.blocks], ?_⟩
  · rw [hx]
    simp only [collect, if_true, ho, Except.map, List.append_nil, partLabels, if_neg h.decodes.notLabel]
  · intro pad
    rw [hx]
    exact .nil
  · rw [hx]
    simp [plainOf]
  · refine .cons ⟨?_, ?_⟩ .nil
    · rw [e1]
      exact ItemOk.padded _ (NameOk.ident ht) hte.expr
    · rw [e1]
      exact (Tight.append (hte.last) (b " = ")).append _
  · intro body ha _
    refine ⟨fun h' => absurd h (not_label_plain h'), fun _ => ?_, fun h' => absurd h' (not_plain_block h)⟩
    simp only [List.nil_append, Item.attrs] at ha
    unfold AttrShows
    rw [get?_filter]
    generalize body.attrs.filter (fun x => x.1 = f.tag) = l at ha ⊢
    cases ha with
    | cons h1 h2 =>
      simp only [List.head?_cons, Option.map_some]
      rw [h1.2.1]
      exact ⟨hl, cv, he, hn, hd⟩

theorem part_enc (h : PlainFld f) (ht : IsIdent f.tag) (hx : fieldEntry f v = [⟨f, v, true⟩]) {e : Expr} {cv} {t : Bytes}
    (hl : Lit e) (he : evalE ext [] e = .ok cv) (hn : cv ≠ .null) (hd : ext.leaf f cv = .ok v)
    (hte : TextIs t e) (ho : outlier env pe rec path level addr f v = .ok [⟨f.tag, [], t, true⟩]) :
    PartS S env emb pe ext shows rec path level addr keyname f v [] [⟨f.tag, [], t, true⟩] [.attr f.tag e] := by
  refine part_out (n := 0) h ht hx hl he hn hd hte ?_ ho
  have q : b "= " = [61, 32] := rfl
  have q' : b " = " = [32, 61, 32] := rfl
  simp [outLine, labelText, q, q']

/-- An attribute that is left out. -/
theorem part_zero {S : Bytes → Expr → Prop} (hz : ZeroOk ext) (h : PlainFld f) (ht : IsIdent f.tag) (hw : f.mayLack) (hv : v = ext.zero f.ty) (hv0 : v.Zero) :
    PartS S env emb pe ext shows rec path level addr keyname f v [] [] [] := by
  have hsh : ∀ body : Body, ReadsA S (Item.attrs ([] ++ [] : List Item)) (body.attrs.filter fun x => x.1 = f.tag) →
      FieldShows env emb ext shows body f v := by
    intro body ha
    refine ⟨fun h' => absurd h (not_label_plain h'), fun _ => ?_, fun h' => absurd h' (not_plain_block h)⟩
    simp only [List.nil_append, Item.attrs] at ha
    unfold AttrShows
    rw [get?_filter]
    generalize body.attrs.filter (fun x => x.1 = f.tag) = l at ha ⊢
    cases ha
    exact ⟨hw, hv⟩
  have hx : fieldEntry f v = [] ∨ (fieldEntry f v = [⟨f, v, true⟩] ∧ outlier env pe rec path level addr f v = .ok []) := by
    have hp := h.ty
    unfold Ty.isPlain at hp
    have hs : ∀ e, f.ty = .slice e → v = .leaf 0 := fun e he => by rw [hv, he, hz.slice]
    have hm : ∀ k e, f.ty = .map k e → v = .leaf 0 := fun k e he => by rw [hv, he, hz.map]
    have hpt : ∀ t, f.ty = .ptr t → v = .leaf 0 := fun t he => by rw [hv, he, hz.ptr]
    split at hp
    case h_13 => cases hp
    case h_1 heq => left; simp [fieldEntry, heq, Ty.coll, passOf, isZero_iff.2 hv0]
    case h_2 heq => left; simp [fieldEntry, heq, Ty.coll, passOf, isZero_iff.2 hv0]
    case h_3 heq =>
      right
      rw [hpt _ heq]
      exact ⟨by simp [fieldEntry, heq, Ty.coll, passOf, withTag_id (ident_ne ht)],
        by simp [outlier, heq, Ty.coll, levelText, Val.isZero, Except.map, outOf, isBlank]⟩
    case h_4 heq =>
      right
      rw [hpt _ heq]
      exact ⟨by simp [fieldEntry, heq, Ty.coll, passOf, withTag_id (ident_ne ht)],
        by simp [outlier, heq, Ty.coll, levelText, Val.isZero, Except.map, outOf, isBlank]⟩
    all_goals
      right
      rename_i heq
      first
        | (have := hs _ heq; subst this)
        | (have := hm _ _ heq; subst this)
      constructor
      · simp [fieldEntry, heq, Ty.coll, passOf, Val.len, withTag_id (ident_ne ht)]
      · simp [outlier, heq, Ty.coll]
  rcases hx with hx | ⟨hx, ho⟩
  · refine ⟨by simp [hx], by simp [hx], ?_, ?_, ?_, .nil, by simp, by simp [Item.attrs], by simp [Item.attrs], by simp [Item.blocks], fun body ha _ => hsh body ha⟩
    · rw [hx]
      simp only [collect, partLabels, if_neg h.decodes.notLabel]
    · intro pad; rw [hx]; exact .nil
    · rw [hx]; simp [plainOf]
  · refine ⟨by simp [hx], by simp [hx], ?_, ?_, ?_, .nil, by simp, by simp [Item.attrs], by simp [Item.attrs], by simp [Item.blocks], fun body ha _ => hsh body ha⟩
    · rw [hx]
      simp only [collect, if_true, ho, Except.map, List.append_nil, partLabels, if_neg h.decodes.notLabel]
    · intro pad; rw [hx]; exact .nil
    · rw [hx]; simp [plainOf]

theorem part_plain (hz : ZeroOk ext) (h : PlainFld f) (ht : IsIdent f.tag) (hv : PlainGood pe ext f v) :
    ∃ ia os io, PartS S env emb pe ext shows rec path level addr keyname f v ia os io := by
  rcases hv with ⟨h1, h2, h3⟩ | ⟨h1, e, cv, h2, h3, h4, h5, h6⟩
  · exact ⟨_, _, _, part_zero hz h ht h1 h2 h3⟩
  · obtain ⟨t, h7, h8⟩ := h6 (level + 1)
    have hfl : ∀ {e : Ty}, e.isComposite = true → (Ty.isPlain (.slice e) = true ∨ ∃ k, Ty.isPlain (.map k e) = true) → ∀ x, isLoop e x = false := by
      intro e _ he x
      cases e <;> simp_all [Ty.isPlain, isLoop, Ty.isComposite]
    have hifc : ∀ {e : Ty}, (∃ k, Ty.isPlain (.map k e) = true) → e.isIface = false := by
      intro e he
      cases e <;> simp_all [Ty.isPlain, Ty.isIface]
    have hout : outOf f [] true t = [⟨f.tag, [], t, true⟩] := by
      rw [outOf, (show Tight t from h8.last).notBlank]
      rfl
    generalize hty : f.ty = ty at h7
    have hp := h.ty
    rw [hty] at hp
    cases h7 with
    | str => exact ⟨_, _, _, part_leaf h ht (by simp [fieldEntry, hty, Ty.coll, passOf, isZero_false.2 h1, withTag_id (ident_ne ht)]) h2 h3 h4 h5 h8⟩
    | leaf => exact ⟨_, _, _, part_leaf h ht (by simp [fieldEntry, hty, Ty.coll, passOf, isZero_false.2 h1, withTag_id (ident_ne ht)]) h2 h3 h4 h5 h8⟩
    | list hc =>
      exact ⟨_, _, _, part_leaf h ht (by simp [fieldEntry, hty, Ty.coll, passOf, Val.len, hc, withTag_id (ident_ne ht)]) h2 h3 h4 h5 h8⟩
    | map hc =>
      exact ⟨_, _, _, part_leaf h ht (by simp [fieldEntry, hty, Ty.coll, passOf, Val.len, hc, withTag_id (ident_ne ht)]) h2 h3 h4 h5 h8⟩
    | nolist =>
      exact ⟨_, _, _, part_enc h ht (by simp [fieldEntry, hty, Ty.coll, passOf, Val.len, withTag_id (ident_ne ht)]) h2 h3 h4 h5 h8
        (by simp [outlier, hty, Ty.coll])⟩
    | lists hc he =>
      exact ⟨_, _, _, part_enc h ht (by simp [fieldEntry, hty, Ty.coll, passOf, Val.len, hc, withTag_id (ident_ne ht)]) h2 h3 h4 h5 h8
        (by simp only [outlier, hty, Ty.coll, hfl hc (.inl hp), Bool.false_eq_true, if_false, he, Except.map, hout])⟩
    | @ptr _ _ _ i n _ he =>
      have q : b "= " = [61, 32] := rfl
      have q' : b " = " = [32, 61, 32] := rfl
      obtain ⟨hx, ho⟩ : fieldEntry f (.leaf i) = [⟨f, .leaf i, true⟩] ∧ outlier env pe rec path level addr f (.leaf i) =
          .ok [⟨f.tag, [], List.replicate n 32 ++ (b "= " ++ t), false⟩] := by
        have hb : isBlank (List.replicate n 32 ++ (b "= " ++ t)) = false := by
          rw [← List.append_assoc]
          exact (Tight.append h8.last _).notBlank
        have hi : (decide (i = 0)) = false := by simpa [Val.Zero] using h1
        rename_i e'
        have : e' = .str ∨ ∃ j, e' = .leaf j := by
          cases e' with
          | str => exact .inl rfl
          | leaf j => exact .inr ⟨j, rfl⟩
          | _ => cases hp
        rcases this with rfl | ⟨j, rfl⟩
        all_goals
          constructor
          · simp [fieldEntry, hty, Ty.coll, passOf, withTag_id (ident_ne ht)]
          · simp [outlier, hty, Ty.coll, levelText, pointerText, Val.isZero, Except.map, outOf, hb, he, hi]
      refine ⟨_, _, _, part_out (n := n) h ht hx h2 h3 h4 h5 h8 ?_ ho⟩
      have hs : List.replicate n 32 ++ [32] = (32 : UInt8) :: List.replicate n 32 := by
        rw [← List.replicate_succ, List.replicate_succ']
      have hs' : (32 : UInt8) :: (List.replicate n 32 ++ (61 :: 32 :: t)) = List.replicate n 32 ++ 32 :: 61 :: 32 :: t := by
        rw [← List.cons_append, ← hs]; simp
      simp [outLine, labelText, q, q', hs']
    | maps hc he =>
      exact ⟨_, _, _, part_enc h ht (by simp [fieldEntry, hty, Ty.coll, passOf, Val.len, hc, withTag_id (ident_ne ht)]) h2 h3 h4 h5 h8
        (by simp only [outlier, hty, Ty.coll, hfl hc (.inr ⟨_, hp⟩), Bool.false_eq_true, if_false, he, Except.map, hifc ⟨_, hp⟩, Bool.not_false, hout])⟩

end

/-! ## Structs -/

theorem fieldList_eq {env : Env} {pe : PExt} {fs : Fields} {deep} {L : List Fld} {v : Fld → Val}
    (h : ∀ f ∈ L, f.upper = true ∧ IsIdent f.tag ∧ GoMap.get? fs f.name = some (v f)) :
    fieldList env pe fs deep L = .ok (L.flatMap fun f => fieldEntry f (v f)) := by
  induction L with
  | nil => rfl
  | cons f L ih =>
    obtain ⟨h1, h2, h3⟩ := h f (by simp)
    rw [fieldList, h1]
    simp only [Bool.not_true, Bool.false_eq_true, if_false, if_neg (ident_dash h2), ident_ne h2, and_false, h3,
      ih (fun g hg => h g (by simp [hg])), Except.map, List.flatMap_cons]

theorem collect_append {env pe rec path level addr keyname} {ps qs : List PFld} {os ls}
    (h : collect env pe rec path level addr keyname ps = .ok (os, ls)) :
    collect env pe rec path level addr keyname (ps ++ qs) =
      (collect env pe rec path level addr keyname qs).map fun r => (os ++ r.1, ls ++ r.2) := by
  induction ps generalizing os ls with
  | nil =>
    simp only [collect, Except.ok.injEq, Prod.mk.injEq] at h
    obtain ⟨rfl, rfl⟩ := h
    simp only [List.nil_append]
    cases collect env pe rec path level addr keyname qs <;> rfl
  | cons p ps ih =>
    simp only [List.cons_append, collect] at h ⊢
    cases hp : p.out with
    | true =>
      simp only [hp, if_true] at h ⊢
      cases ho : outlier env pe rec path level addr p.fld p.val with
      | error x => rw [ho] at h; cases h
      | ok o =>
        rw [ho] at h
        simp only [] at h ⊢
        cases hc : collect env pe rec path level addr keyname ps with
        | error x => rw [hc] at h; cases h
        | ok r =>
          rw [hc] at h
          simp only [Except.map, Except.ok.injEq, Prod.mk.injEq] at h
          obtain ⟨rfl, rfl⟩ := h
          rw [ih (os := r.1) (ls := r.2) hc]
          cases collect env pe rec path level addr keyname qs with
          | error x => rfl
          | ok r' => simp [Except.map]
    | false =>
      simp only [hp, Bool.false_eq_true, if_false] at h ⊢
      by_cases hw : p.fld.what = b "label"
      · simp only [hw, if_true] at h ⊢
        split at h
        · rename_i s h1 h2
          cases hc : collect env pe rec path level addr keyname ps with
          | error x => rw [hc] at h; cases h
          | ok r =>
            rw [hc] at h
            simp only [Except.map, Except.ok.injEq, Prod.mk.injEq] at h
            obtain ⟨rfl, rfl⟩ := h
            rw [ih (os := r.1) (ls := r.2) hc]
            cases collect env pe rec path level addr keyname qs with
            | error x => rfl
            | ok r' =>
              simp only [Except.map]
              split <;> rfl
        · cases h
      · simp only [hw, if_false] at h ⊢
        by_cases hcl : p.fld.ty.coll ≠ p.fld.ty
        · rw [if_pos hcl] at h; cases h
        · rw [if_neg hcl] at h ⊢
          exact ih h

theorem collect_flatMap {env pe rec path level addr keyname} {g : Fld → List PFld} {os : Fld → List POut} {ls : Fld → List Bytes}
    {L : List Fld} (h : ∀ f ∈ L, collect env pe rec path level addr keyname (g f) = .ok (os f, ls f)) :
    collect env pe rec path level addr keyname (L.flatMap g) = .ok (L.flatMap os, L.flatMap ls) := by
  induction L with
  | nil => rfl
  | cons f L ih =>
    rw [List.flatMap_cons, collect_append (h f (by simp)), ih fun x hx => h x (by simp [hx])]
    rfl

theorem flatMap_sublist {g : Fld → List PFld} {L : List Fld} (h : ∀ f ∈ L, (g f).length ≤ 1 ∧ ∀ p ∈ g f, p.fld = f) :
    ((L.flatMap g).map PFld.fld).Sublist L := by
  induction L with
  | nil => exact .refl _
  | cons f L ih =>
    rw [List.flatMap_cons, List.map_append]
    have hr := ih fun x hx => h x (by simp [hx])
    obtain ⟨h1, h2⟩ := h f (by simp)
    match hg : g f, h1 with
    | [], _ => exact hr.cons f
    | [p], _ =>
      rw [List.map_singleton, h2 p (by simp [hg])]
      exact hr.cons_cons f

theorem attrsOf_eq (pe : PExt) {ps : List PFld} (h : (ps.map fun p => p.fld.tag).Nodup) :
    attrsOf pe ps = ps.map fun p => (p.fld.tag, pe.expr p.fld p.val) := by
  induction ps with
  | nil => rfl
  | cons p ps ih =>
    simp only [List.map_cons, List.nodup_cons] at h
    rw [attrsOf, if_neg, ih h.2, List.map_cons]
    simp only [List.any_eq_true, decide_eq_true_eq, not_exists, not_and]
    intro q hq e
    exact h.1 (List.mem_map.2 ⟨q, hq, e⟩)

theorem nodup_of_filter {l : List (Bytes × Expr)} (h : ∀ k, (l.filter fun x => x.1 = k).length ≤ 1) : (l.map Prod.fst).Nodup := by
  induction l with
  | nil => simp
  | cons x l ih =>
    rw [List.map_cons, List.nodup_cons]
    constructor
    · intro hm
      obtain ⟨y, hy, e⟩ := List.mem_map.1 hm
      have := h x.1
      rw [List.filter_cons_of_pos (by simp)] at this
      have hy' : y ∈ l.filter fun z => z.1 = x.1 := by simp [hy, e]
      have := List.length_pos_of_mem hy'
      simp only [List.length_cons] at *
      omega
    · refine ih fun k => Nat.le_trans ?_ (h k)
      exact (List.Sublist.filter _ (List.sublist_cons_self x l)).length_le

/-! ## Embedded structs -/

theorem fieldList_append {env : Env} {pe : PExt} {fs : Fields} {deep : List Fld → Except Fail (List PFld)} : ∀ {l l' : List Fld},
    fieldList env pe fs deep (l ++ l') = match fieldList env pe fs deep l with
      | .error x => .error x
      | .ok r => (fieldList env pe fs deep l').map fun r' => r ++ r'
  | [], l' => by
    simp only [List.nil_append, fieldList]
    cases fieldList env pe fs deep l' <;> rfl
  | f :: l, l' => by
    have ih := fieldList_append (env := env) (pe := pe) (fs := fs) (deep := deep) (l := l) (l' := l')
    have hmap : ∀ r0 : List PFld, (fieldList env pe fs deep (l ++ l')).map (fun r => r0 ++ r) =
        match (fieldList env pe fs deep l).map (fun r => r0 ++ r) with
        | .error x => .error x
        | .ok r => (fieldList env pe fs deep l').map fun r' => r ++ r' := by
      intro r0
      rw [ih]
      cases fieldList env pe fs deep l with
      | error x => rfl
      | ok r =>
        cases fieldList env pe fs deep l' with
        | error x => rfl
        | ok r' => simp [Except.map]
    simp only [List.cons_append, fieldList]
    split
    · exact ih
    · split
      · exact ih
      · split
        · split
          · split
            · rfl
            · exact ih
          · split
            · rfl
            · exact hmap _
          · rfl
          · exact ih
        · split
          · rfl
          · exact hmap _

/-- Fields with tags do not need the nested call. -/
theorem fieldList_deep {env : Env} {pe : PExt} {fs : Fields} {deep deep' : List Fld → Except Fail (List PFld)} : ∀ {l : List Fld},
    (∀ f ∈ l, f.tag ≠ []) → fieldList env pe fs deep l = fieldList env pe fs deep' l
  | [], _ => rfl
  | f :: l, h => by
    have ih := fieldList_deep (env := env) (pe := pe) (fs := fs) (deep := deep) (deep' := deep') (l := l) fun g hg => h g (by simp [hg])
    simp only [fieldList, ih, h f (by simp), and_false, if_false]

/-- The fields of embedded structs are written as if they were in their place. -/
theorem getFields_flat {env : Env} {pe : PExt} {fs : Fields} : ∀ {emb m : Nat} {l : List Fld}, emb ≤ m →
    (∀ f ∈ flatten env emb l, f.tag ≠ []) → (∀ g ∈ embeddedIn env emb l, pe.anon g = true) →
    getFields env pe fs m l = getFields env pe fs m (flatten env emb l)
  | 0, m, l, _, _, _ => rfl
  | emb + 1, m + 1, l, hm, hk, he => by
    simp only [getFields]
    induction l with
    | nil => rfl
    | cons f l ih =>
      rw [flatten, List.flatMap_cons] at hk ⊢
      rw [embeddedIn, List.flatMap_cons] at he
      have hk1 := fun g hg => hk g (List.mem_append_left _ hg)
      have hk2 := fun g hg => hk g (List.mem_append_right _ hg)
      rw [show f :: l = [f] ++ l from rfl, fieldList_append, fieldList_append, ih hk2 fun g hg => he g (List.mem_append_right _ hg)]
      cases hf : f.embeds with
      | none => rfl
      | some c =>
        simp only [hf] at hk1 he
        obtain ⟨hu, ht, hw, hty⟩ := Fld.embeds_some hf
        have hl : fieldList env pe fs (getFields env pe fs m) [f] = getFields env pe fs m (env.struct c).fields := by
          have hs : ¬ (f.tag = b "-" ∨ (b ",-").isSuffixOf f.tag = true) := by rw [ht]; decide +kernel
          rw [fieldList, if_neg (by simp [hu]), if_neg hs, if_pos ⟨he f (by simp), ht⟩, hty]
          simp only [fieldList]
          cases getFields env pe fs m (env.struct c).fields <;> simp [Except.map]
        have hi := getFields_flat (env := env) (pe := pe) (fs := fs) (emb := emb) (m := m) (l := (env.struct c).fields) (by omega) hk1
          (fun g hg => he g (by simp [hg]))
        have hd : getFields env pe fs m (flatten env emb (env.struct c).fields) =
            fieldList env pe fs (getFields env pe fs m) (flatten env emb (env.struct c).fields) := by
          cases m <;> exact fieldList_deep hk1
        rw [hl, hi, hd]
        rfl

theorem Rendered.imp {level : Nat} {labels : List Bytes} {p q : Body → Prop} {t : Bytes} (h : Rendered S level labels p t) (hi : ∀ body, p body → q body) :
    Rendered S level labels q t := by
  obtain ⟨lines, es, h1, h2, h3, h4⟩ := h
  exact ⟨lines, es, h1, h2, h3, fun body hb => hi body (h4 body hb)⟩

/-- If every field is written as a part, the struct is written as a document that shows the parts. -/
theorem parts_rendered {env : Env} {emb : Nat} {pe : PExt} {path : List Bytes} {level : Nat} {keyname : List Bytes} {addr : Bool} {c : Nat}
    {rec : PRec} {fs : Fields} {A B : Fld → Prop} {Q : Fld → Val → Body → Prop}
    (hemb : emb ≤ pe.embedded ∧ ∀ g ∈ embeddedIn env emb (env.struct c).fields, pe.anon g = true)
    (hnm : ((env.flat emb c).fields.map Fld.name).Nodup) (htg : ((env.flat emb c).fields.map Fld.tag).Nodup)
    (hup : ∀ f ∈ (env.flat emb c).fields, f.upper = true) (h3 : ∀ f ∈ (env.flat emb c).fields, IsIdent f.tag)
    (hparts : ∀ f, ∃ v ia os io, f ∈ (env.flat emb c).fields → GoMap.get? fs f.name = some v ∧
      Part S env pe rec path level addr keyname f v (A f) (B f) (Q f v) ia os io) :
    ∃ t, marshalStruct env pe rec path level keyname addr c fs = .ok t ∧
      Rendered S level (writtenLabels (env.flat emb c) fs keyname.head?) (fun body =>
        (∀ a ∈ body.attrs, ∃ f ∈ (env.flat emb c).fields, A f ∧ f.tag = a.1) ∧ (body.attrs.map Prod.fst).Nodup ∧
        (∀ x ∈ body.blocks, ∃ f ∈ (env.flat emb c).fields, B f ∧ f.tag = x.1) ∧
        ∀ f ∈ (env.flat emb c).fields, ∃ v, GoMap.get? fs f.name = some v ∧ Q f v body) t := by
  generalize hL : (env.flat emb c).fields = L at *
  choose v ia os io hparts using hparts
  have hget := fun f hf => (hparts f hf).1
  have hpart := fun f hf => (hparts f hf).2
  have hgf : getFields env pe fs pe.embedded (env.struct c).fields = .ok (L.flatMap fun f => fieldEntry f (v f)) := by
    have : ∀ deep, fieldList env pe fs deep L = .ok (L.flatMap fun f => fieldEntry f (v f)) := fun deep =>
      fieldList_eq fun f hf => ⟨hup f hf, h3 f hf, hget f hf⟩
    have hflat := getFields_flat (env := env) (pe := pe) (fs := fs) (m := pe.embedded) (l := (env.struct c).fields) hemb.1
      (fun f hf => (ident_ne (h3 f (hL ▸ hf)))) hemb.2
    have hL' : flatten env emb (env.struct c).fields = L := hL
    rw [hflat, hL']
    cases pe.embedded <;> exact this _
  have hcol := collect_flatMap (L := L) (g := fun f => fieldEntry f (v f)) (os := os) (ls := fun f => partLabels f (some (v f)) keyname.head?)
    (fun f hf => (hpart f hf).collect)
  have hlab : L.flatMap (fun f => partLabels f (some (v f)) keyname.head?) = writtenLabels (env.flat emb c) fs keyname.head? := by
    rw [writtenLabels_eq, hL]
    refine List.flatMap_congr fun f hf => ?_
    rw [hget f hf]
  have hsub := flatMap_sublist (L := L) (g := fun f => fieldEntry f (v f)) fun f hf => ⟨(hpart f hf).len, (hpart f hf).fld⟩
  have hnames : (((L.flatMap fun f => fieldEntry f (v f)).filter fun p => !p.out).map fun p => p.fld.name).Nodup := by
    have hs := ((List.filter_sublist (p := fun p : PFld => !p.out) (l := L.flatMap fun f => fieldEntry f (v f))).map PFld.fld).trans hsub
    have := (hs.map Fld.name).nodup (hnm)
    rw [List.map_map] at this
    exact this
  have hplain : plainOf (L.flatMap fun f => fieldEntry f (v f)) = L.flatMap fun f => plainOf (fieldEntry f (v f)) := by
    simp only [plainOf, List.filter_flatMap]
  have htags : ((plainOf (L.flatMap fun f => fieldEntry f (v f))).map fun p => p.fld.tag).Nodup := by
    have hs := ((List.filter_sublist (p := fun p : PFld => !p.out && p.fld.what ≠ b "label") (l := L.flatMap fun f => fieldEntry f (v f))).map PFld.fld).trans hsub
    have := (hs.map Fld.tag).nodup (htg)
    rw [List.map_map] at this
    exact this
  have hsupp : (plainOf (L.flatMap fun f => fieldEntry f (v f))).any (fun p => !supported p.fld) = false := by
    rw [List.any_eq_false, hplain]
    intro p hp
    obtain ⟨f, hf, hp⟩ := List.mem_flatMap.1 hp
    simp [(hpart f hf).supp p hp]
  -- the items
  have hlines : ∀ pad, List.Forall₂ (fun p i => ItemOk (plainLine pe (indent (level + 1)) pad p) i ∧ Tight (plainLine pe (indent (level + 1)) pad p))
      (plainOf (L.flatMap fun f => fieldEntry f (v f))) (L.flatMap ia) := by
    intro pad
    rw [hplain]
    exact forall2_flatMap fun f hf => (hpart f hf).plain pad
  have houts : List.Forall₂ LineIs (L.flatMap os) (L.flatMap io) := forall2_flatMap fun f hf => (hpart f hf).outs
  have hkeys : ∀ i ∈ L.flatMap ia ++ L.flatMap io, ∃ f ∈ L, i ∈ ia f ++ io f := by
    intro i hi
    rcases List.mem_append.1 hi with hi | hi
    · obtain ⟨f, hf, hi⟩ := List.mem_flatMap.1 hi
      exact ⟨f, hf, by simp [hi]⟩
    · obtain ⟨f, hf, hi⟩ := List.mem_flatMap.1 hi
      exact ⟨f, hf, by simp [hi]⟩
  have hfilt : ∀ f ∈ L, (L.flatMap ia ++ L.flatMap io).filter (fun i => itemKey i = f.tag) = ia f ++ io f := by
    intro f hf
    rw [List.filter_append, filter_flatMap (htg) (fun g hg x hx => (hpart g hg).keys x (by simp [hx])) hf,
      filter_flatMap (htg) (fun g hg x hx => (hpart g hg).keys x (by simp [hx])) hf]
  have hnd : ((Item.attrs (L.flatMap ia ++ L.flatMap io)).map Prod.fst).Nodup := by
    refine nodup_of_filter fun k => ?_
    rw [attrs_filter]
    by_cases hk : ∃ f ∈ L, f.tag = k
    · obtain ⟨f, hf, rfl⟩ := hk
      rw [hfilt f hf]
      exact (hpart f hf).one
    · rw [List.filter_eq_nil_iff.2]
      · simp [Item.attrs]
      · intro i hi
        obtain ⟨f, hf, hi⟩ := hkeys i hi
        rw [(hpart f hf).keys i hi]
        simp only [decide_eq_true_eq]
        exact fun e => hk ⟨f, hf, e⟩
  generalize hps : (L.flatMap fun f => fieldEntry f (v f)) = ps at *
  have hattrs := attrsOf_eq pe htags
  refine ⟨wrapText level (writtenLabels (env.flat emb c) fs keyname.head?) (structText pe level (attrsOf pe (plainOf ps)) (L.flatMap os)), ?_, ?_⟩
  · rw [marshalStruct]
    simp only [hgf, hcol, hnames, not_true, if_false, hsupp, Bool.false_eq_true, hlab]
  · refine ⟨(attrsOf pe (plainOf ps)).map (fun a => indentLines (indent (level + 1)) (attrLine' (pe.pad (attrsOf pe (plainOf ps))) a)) ++
        (L.flatMap os).map outLine, L.flatMap ia ++ L.flatMap io, ?_, ?_, hnd, ?_⟩
    · rw [structText_eq]
      · intro a ha
        rw [hattrs] at ha
        obtain ⟨p, hp, rfl⟩ := List.mem_map.1 ha
        have := hlines (pe.pad (attrsOf pe (plainOf ps)))
        obtain ⟨i, _, _, h⟩ := forall2_left this hp
        exact h
      · intro o ho
        obtain ⟨i, _, _, h⟩ := forall2_left houts ho
        exact h
    · refine forall2_append ?_ ?_
      · have := hlines (pe.pad (attrsOf pe (plainOf ps)))
        generalize pe.pad (attrsOf pe (plainOf ps)) = pad at this ⊢
        rw [hattrs, List.map_map, List.forall₂_map_left_iff]
        exact this.imp fun _ _ h => h.1
      · rw [List.forall₂_map_left_iff]
        exact houts.imp fun _ _ h => h.1
    · intro body hb
      cases hb with
      | @mk _ as _ bs ha hbl =>
        refine ⟨?_, ?_, ?_, ?_⟩
        · intro a hm
          obtain ⟨x, hx, e⟩ := readsA_mem ha hm
          obtain ⟨f, hf, hi⟩ := hkeys _ (mem_attrs hx)
          refine ⟨f, hf, (hpart f hf).attrs ?_, ?_⟩
          · exact List.ne_nil_of_mem (attrs_mem hi)
          · rw [← e, ← (hpart f hf).keys _ hi]; rfl
        · have := readsA_keys ha
          simp only [Body.attrs]
          rw [this]
          exact hnd
        · intro y hm
          obtain ⟨x, hx, e⟩ := readsL_mem hbl hm
          obtain ⟨f, hf, hi⟩ := hkeys _ (mem_blocks hx)
          refine ⟨f, hf, (hpart f hf).blocks ?_, ?_⟩
          · exact List.ne_nil_of_mem (blocks_mem hi)
          · rw [← e, ← (hpart f hf).keys _ hi]; rfl
        · intro f hf
          refine ⟨v f, hget f hf, (hpart f hf).shows _ ?_ ?_⟩
          · rw [← hfilt f hf, ← attrs_filter]
            exact readsA_filter ha
          · rw [← hfilt f hf, ← blocks_filter]
            exact readsL_filter hbl

/-- A writable struct is written as a document that shows it. -/
theorem writable_rendered {env : Env} {emb : Nat} {pe : PExt} {ext : Ext} (hz : ZeroOk ext)
    (hpo : ∀ p l, (pe.ord p l).Perm l) (hpo2 : ∀ p l, (pe.ord2 p l).Perm l) (n : Nat) (N : Nat) :
    RecGood S env emb (Writable env emb pe ext n) (Shows env emb ext n) N (marshalN env pe N) := by
  induction n generalizing N with
  | zero => intro path level keyname addr c fs hg; exact hg.elim
  | succ n ih =>
    intro path level keyname addr c fs hg hd
    obtain ⟨h1, hemb, h2, h3, h4⟩ := hg
    match N, hd with
    | N + 1, hd =>
      have hrec := ih N
      have hparts : ∀ f, ∃ v ia os io, f ∈ (env.flat emb c).fields → GoMap.get? fs f.name = some v ∧
          PartS S env emb pe ext (Shows env emb ext n) (marshalN env pe N) path level addr keyname f v ia os io := by
        intro f
        by_cases hf : f ∈ (env.flat emb c).fields
        · obtain ⟨v, hv, ha, hb, hc⟩ := h4 f hf
          obtain ⟨ht, hw⟩ := h3 f hf
          have hdv : v.depth ≤ N := by have := depth_get hv; omega
          rcases h1.kinds f hf with hk | hk | hk
          · exact ⟨v, _, _, _, fun _ => ⟨hv, part_label hk ht (hw hk) (ha hk)⟩⟩
          · obtain ⟨ia, os, io, h⟩ := part_plain (env := env) (shows := Shows env emb ext n) (rec := marshalN env pe N) (path := path) (level := level)
              (addr := addr) (keyname := keyname) hz hk ht (hb hk)
            exact ⟨v, ia, os, io, fun _ => ⟨hv, h⟩⟩
          · obtain ⟨os, io, h⟩ := part_block (path := path) (level := level) (addr := addr) (keyname := keyname) hrec hz hpo hpo2 hk ht (hc hk) hdv
            exact ⟨v, [], os, io, fun _ => ⟨hv, h⟩⟩
        · exact ⟨.leaf 0, [], [], [], fun h => absurd h hf⟩
      have hup : ∀ f ∈ (env.flat emb c).fields, f.upper = true := by
        intro f hf
        rcases h1.kinds f hf with hk | hk | hk
        · exact hk.upper
        · exact hk.decodes.upper
        · exact hk.decodes.upper
      obtain ⟨t, ht, hr⟩ := parts_rendered hemb h1.names h1.tags hup (fun f hf => (h3 f hf).1) hparts
      exact ⟨t, ht, hr.imp fun body h => ⟨h1, h2, h⟩⟩

/-- The text of a struct at the root. -/
theorem rendered_root {labels : List Bytes} {shows : Body → Prop} {t : Bytes} (h : Rendered S 0 labels shows t) :
    ∃ doc, Hcl.parseConfig t = .ok doc ∧ ∀ body, Reads S doc body → shows body := by
  obtain ⟨lines, es, rfl, h1, h2, h3⟩ := h
  refine ⟨_, ?_, h3⟩
  simp only [wrapText, if_true, bodyText]
  cases h1 with
  | nil => rfl
  | cons ha hr =>
    rw [if_neg (by simp)]
    exact Hcl.parseConfig_lines (.cons ha hr) (by simp) h2 1

mutual
theorem reads_ofDoc : ∀ doc, Reads AnySrc doc (ofDoc doc)
  | .mk as bs => by
    rw [ofDoc]
    refine .mk ?_ (reads_ofBlocks bs)
    rw [List.forall₂_map_right_iff]
    exact List.forall₂_same.2 fun a _ => ⟨rfl, rfl, trivial⟩
theorem reads_ofBlocks : ∀ bs, ReadsL AnySrc bs (ofBlocks bs)
  | [] => .nil
  | (_, _, x) :: r => .cons (reads_ofDoc x) (reads_ofBlocks r)
end

theorem exists_readsA {S : Bytes → Expr → Prop} (hS : ∀ e, ∃ src, S src e) : ∀ as, ∃ as', ReadsA S as as'
  | [] => ⟨[], .nil⟩
  | (k, e) :: r => by
    obtain ⟨src, h⟩ := hS e
    obtain ⟨r', hr⟩ := exists_readsA hS r
    exact ⟨(k, ⟨e, src⟩) :: r', .cons ⟨rfl, rfl, h⟩ hr⟩

mutual
theorem exists_reads {S : Bytes → Expr → Prop} (hS : ∀ e, ∃ src, S src e) : ∀ doc, ∃ body, Reads S doc body
  | .mk as bs => by
    obtain ⟨as', ha⟩ := exists_readsA hS as
    obtain ⟨bs', hb⟩ := exists_readsL hS bs
    exact ⟨.mk as' bs', .mk ha hb⟩
theorem exists_readsL {S : Bytes → Expr → Prop} (hS : ∀ e, ∃ src, S src e) : ∀ bs, ∃ bs', ReadsL S bs bs'
  | [] => ⟨[], .nil⟩
  | (k, ls, x) :: r => by
    obtain ⟨y, hy⟩ := exists_reads hS x
    obtain ⟨r', hr⟩ := exists_readsL hS r
    exact ⟨(k, ls, y) :: r', .cons hy hr⟩
end

end Verif.HclS
