import Verif.Lemmas.HclTree
import Verif.Spec.HclText
/-!
# Without references the tree does not matter
-/

namespace Verif.HclS
open Verif.Tree (Heap)
open Hcl (Cty Expr GV Out ctyToNative keyE mkList)
open Det (insertK ltB)

/-- The same result as without a tree, whatever the tree is. -/
def Plain (root node : Nat) {α : Type} (x : Act α) (o : Out α) : Prop :=
  ∀ h, Tree.Inv h → root < h.length → node < h.length →
    (x h).map Prod.fst = outE o ∧ ∀ v h', x h = .ok (v, h') → Tree.Inv h' ∧ h.length ≤ h'.length

section
variable {root node : Nat} {α β : Type}

theorem Plain.pure (a : α) : Plain root node (Act.pure a) (.ok a) :=
  fun _ hi _ _ => ⟨rfl, fun _ _ he => by cases he; exact ⟨hi, Nat.le_refl _⟩⟩

theorem Plain.fail : Plain root node (Act.fail .err : Act α) .err :=
  fun _ _ _ _ => ⟨rfl, fun _ _ he => by cases he⟩

theorem Plain.panic : Plain root node (Act.fail .panic : Act α) .panic :=
  fun _ _ _ _ => ⟨rfl, fun _ _ he => by cases he⟩

theorem Plain.ofOut (o : Out α) : Plain root node (Act.ofOut o) o := by
  intro h hi _ _
  cases o <;> refine ⟨rfl, fun v h' he => ?_⟩ <;> cases he
  exact ⟨hi, Nat.le_refl _⟩

theorem Plain.bind {x : Act α} {o : Out α} {f : α → Act β} {g : α → Out β} (h1 : Plain root node x o)
    (h2 : ∀ a, o = .ok a → Plain root node (f a) (g a)) : Plain root node (x.bind f) (o.bind g) := by
  intro h hi hr hn
  obtain ⟨e1, p1⟩ := h1 h hi hr hn
  simp only [Act.bind]
  cases hx : x h with
  | error e =>
    rw [hx] at e1
    refine ⟨?_, fun v h' he => by cases he⟩
    cases o <;> cases e1 <;> rfl
  | ok r =>
    obtain ⟨a, g1⟩ := r
    rw [hx] at e1
    obtain ⟨i1, l1⟩ := p1 a g1 hx
    cases o <;> cases e1
    obtain ⟨e2, p2⟩ := h2 a rfl g1 i1 (by omega) (by omega)
    refine ⟨e2, fun v h' he => ?_⟩
    obtain ⟨i2, l2⟩ := p2 v h' he
    exact ⟨i2, by omega⟩

theorem Plain.map {x : Act α} {o : Out α} (g : α → β) (h1 : Plain root node x o) : Plain root node (x.map g) (o.map g) :=
  h1.bind fun a _ => .pure (g a)

theorem Plain.sub {k : Bytes} {f : Nat → Act α} {o : Out α} (h1 : ∀ sub, Plain root sub (f sub) o) :
    Plain root node ((nodeAt node k).bind f) o := by
  intro h hi hr hn
  simp only [Act.bind, nodeAt]
  cases hx : Tree.addNode h node k with
  | none =>
    obtain ⟨nd, hnd⟩ : ∃ nd, h[node]? = some nd := ⟨h[node], by simp [hn]⟩
    rcases Tree.addNode_cases hi hnd k with ⟨c', _, h2⟩ | ⟨_, h2⟩ <;> rw [h2] at hx <;> cases hx
  | some r =>
    obtain ⟨h2, sub⟩ := r
    dsimp only
    have hs : SaneR (fun _ => False) root h := ⟨hi, fun _ _ _ _ _ _ _ h => h⟩
    obtain ⟨s1, g1, c1⟩ := addNode_growB hs hx 0
    have hl := g1.le.length
    obtain ⟨e2, p2⟩ := h1 sub h2 s1.inv (by omega) (Tree.Edge.lt s1.inv c1.1).2
    refine ⟨e2, fun v h' he => ?_⟩
    obtain ⟨i2, l2⟩ := p2 v h' he
    exact ⟨i2, by omega⟩

end

variable {ext : Ext} {root : Nat}

theorem scalarT_plain {node : Nat} {key : Bytes} {e : Expr} {w : Cty} (hw : ∀ vars, evalE ext vars e = .ok w) :
    Plain root node (scalarT ext root node key e) (.ofExcept (ctyToNative w)) := by
  intro h hi hr hn
  obtain ⟨vars, hv⟩ := Tree.variables_total hi hr
  obtain ⟨h1, ha, hi1, hl1⟩ := Tree.le_addItem hi hn key w
  simp only [scalarT, hv, hw, ha]
  cases ctyToNative w with
  | error e => exact ⟨rfl, fun v h' he => by cases he⟩
  | ok v =>
    refine ⟨rfl, fun v h' he => ?_⟩
    cases he
    exact ⟨hi1, hl1.length⟩

theorem nativeT_plain_scalar {e : Expr} (hs : Scalar e) : ∀ node key, Plain root node (nativeT ext root node key e) (Hcl.nativeE ext.plain e) := by
  intro node key
  rw [nativeT_scalar hs]
  have key' : ∀ w, (∀ vars, evalE ext vars e = .ok w) → Hcl.nativeE ext.plain e = .ofExcept (ctyToNative w) →
      Plain root node (scalarT ext root node key e) (Hcl.nativeE ext.plain e) := by
    intro w h1 h2
    rw [h2]
    exact scalarT_plain h1
  cases hs with
  | @str s => exact key' (.str (ext.nfc s)) (fun _ => by simp only [evalE]) (by simp only [Hcl.nativeE, Hcl.evalE, Ext.plain, Out.bind])
  | @num q => exact key' (.num q) (fun _ => by simp only [evalE]) (by simp only [Hcl.nativeE, Hcl.evalE, Out.bind])
  | @neg q => exact key' (.num (-q)) (fun _ => by simp only [evalE, negOf]) (by simp only [Hcl.nativeE, Hcl.evalE, Out.bind])
  | tru => exact key' (.bool true) (fun _ => rfl) (by simp only [Hcl.nativeE, Hcl.evalE, Out.bind, if_pos])
  | fls => exact key' (.bool false) (fun _ => rfl) (by
      rw [Hcl.nativeE, Hcl.evalE, if_neg (by decide +kernel), if_pos rfl]; rfl)
  | null => exact key' .null (fun _ => rfl) (by
      rw [Hcl.nativeE, Hcl.evalE, if_neg (by decide +kernel), if_neg (by decide +kernel), if_pos rfl]; rfl)

theorem nativeTL_plain : ∀ {l : List Expr}, (∀ e ∈ l, ∀ node key, Plain root node (nativeT ext root node key e) (Hcl.nativeE ext.plain e)) →
    ∀ node i, Plain root node (nativeTL ext root node i l) (Hcl.nativeL ext.plain l)
  | [], _, node, i => by
    simp only [nativeTL, Hcl.nativeL]
    exact .pure _
  | e :: l, h, node, i => by
    simp only [nativeTL, Hcl.nativeL]
    exact (h e (by simp) node _).bind fun v _ => .map _ (nativeTL_plain (fun e he => h e (by simp [he])) node (i + 1))

theorem nativeTO_plain : ∀ {m : List (Expr × Expr)}, (∀ e ∈ m, ∀ node key, Plain root node (nativeT ext root node key e.2) (Hcl.nativeE ext.plain e.2)) →
    ∀ node obj, Plain root node (nativeTO ext root node m obj) (Hcl.nativeO ext.plain m obj)
  | [], _, node, obj => by
    simp only [nativeTO, Hcl.nativeO]
    exact .pure _
  | (k, e) :: m, h, node, obj => by
    simp only [nativeTO, Hcl.nativeO]
    exact (Plain.ofOut _).bind fun key _ => (h (k, e) (by simp) node key).bind fun v _ => nativeTO_plain (fun e he => h e (by simp [he])) node _

theorem nativeT_plain {e : Expr} (h : Lit e) : ∀ node key, Plain root node (nativeT ext root node key e) (Hcl.nativeE ext.plain e) := by
  induction h with
  | str => exact nativeT_plain_scalar .str
  | num => exact nativeT_plain_scalar .num
  | neg => exact nativeT_plain_scalar .neg
  | tru => exact nativeT_plain_scalar .tru
  | fls => exact nativeT_plain_scalar .fls
  | null => exact nativeT_plain_scalar .null
  | nullCall =>
    intro node key
    rw [nativeT, Hcl.nativeE, if_pos rfl, if_pos rfl]
    exact .pure _
  | tuple _ ih =>
    intro node key
    simp only [nativeT, Hcl.nativeE]
    exact .sub fun sub => .map _ (nativeTL_plain ih sub 0)
  | object _ _ ih =>
    intro node key
    simp only [nativeT, Hcl.nativeE]
    exact .sub fun sub => .map _ (nativeTO_plain ih sub [])

theorem assignT_plain {node : Nat} {val : Bytes → Act GV} {val' : Bytes → Out GV} : ∀ {ks : List Bytes}, (∀ k ∈ ks, Plain root node (val k) (val' k)) →
    ∀ obj, Plain root node (assignT val ks obj) (Hcl.assignAll val' ks obj)
  | [], _, obj => .pure obj
  | k :: ks, h, obj => by
    simp only [assignT, Hcl.assignAll]
    exact (h k (by simp)).bind fun v _ => assignT_plain (fun k hk => h k (by simp [hk])) _

/-- Blocks that give the same results as without a tree. -/
def ActsP (root : Nat) (bs : Acts) (bs' : Hcl.Blocks) : Prop :=
  List.Forall₂ (fun x y => x.1 = y.1 ∧ x.2.1 = y.2.1 ∧ ∀ node, Plain root node (x.2.2 node) y.2.2) bs bs'

theorem forall₂_filter' {γ δ : Type} {R : γ → δ → Prop} {P : γ → Bool} {Q : δ → Bool} (hP : ∀ x y, R x y → P x = Q y) {l : List γ} {l' : List δ}
    (h : List.Forall₂ R l l') : List.Forall₂ R (l.filter P) (l'.filter Q) := by
  induction h with
  | nil => exact .nil
  | @cons x y xs ys hxy _ ih =>
    simp only [List.filter_cons, ← hP x y hxy]
    split
    · exact .cons hxy ih
    · exact ih

theorem forall₂_map' {γ δ γ' δ' : Type} {R : γ → δ → Prop} {S : γ' → δ' → Prop} {f : γ → γ'} {g : δ → δ'} (hf : ∀ x y, R x y → S (f x) (g y))
    {l : List γ} {l' : List δ} (h : List.Forall₂ R l l') : List.Forall₂ S (l.map f) (l'.map g) := by
  induction h with
  | nil => exact .nil
  | cons hx _ ih => exact .cons (hf _ _ hx) ih

theorem forall₂_eq {γ : Type} {l l' : List γ} (h : List.Forall₂ (fun x y => x = y) l l') : l = l' := by
  induction h with
  | nil => rfl
  | cons hx _ ih => rw [hx, ih]

/-- Labelled blocks that give the same results as without a tree. -/
def LabsP (root : Nat) (l : List (Bytes × (Nat → Act GV))) (l' : List (Bytes × Out GV)) : Prop :=
  List.Forall₂ (fun x y => x.1 = y.1 ∧ ∀ node, Plain root node (x.2 node) y.2) l l'

theorem lastT_plain {l l'} (h : LabsP root l l') (k : Bytes) (node : Nat) : Plain root node (lastT l k node) (Hcl.lastO l' k) := by
  unfold lastT Hcl.lastO
  have hf := forall₂_filter' (P := fun e : Bytes × (Nat → Act GV) => decide (e.1 = k)) (Q := fun e : Bytes × Out GV => decide (e.1 = k))
    (fun x y hxy => by rw [hxy.1]) h
  rcases forall₂_last hf with ⟨h1, h2⟩ | ⟨x, y, h1, h2, h3⟩
  · rw [h1, h2]; exact .fail
  · rw [h1, h2]; exact h3.2 node

theorem labelsT_plain {path : List Bytes} {l l'} (h : LabsP root l l') (kn : Nat) :
    Plain root kn (labelsT ext path kn l) ((Hcl.assignAll (Hcl.lastO l') (ext.ord path (Hcl.dedupB (l'.map Prod.fst))) []).map .map) := by
  unfold labelsT
  rw [forall₂_eq (forall₂_map' (S := fun x y => x = y) (f := Prod.fst) (g := Prod.fst) (fun x y hxy => hxy.1) h)]
  exact .map _ (assignT_plain (fun k _ => .sub fun sub => lastT_plain h k sub) _)

theorem seqT_plain : ∀ {l : List (Nat → Act GV)} {l' : List (Out GV)}, List.Forall₂ (fun f o => ∀ node, Plain root node (f node) o) l l' → ∀ kn i,
    Plain root kn (seqT kn i l) (Hcl.seqOut l')
  | _, _, .nil, kn, i => .pure _
  | _, _, .cons hx ht, kn, i => by
    simp only [seqT, Hcl.seqOut]
    exact (Plain.sub hx).bind fun v _ => .map _ (seqT_plain ht kn (i + 1))

theorem zeroT_plain {bs bs'} (h : ActsP root bs bs') (node : Nat) (k : Bytes) : Plain root node (zeroT node bs k) (Hcl.zeroVal bs' k) := by
  unfold zeroT Hcl.zeroVal zerosT Hcl.zeros
  exact .sub fun kn => .map _ (seqT_plain (forall₂_map' (fun x y hxy => hxy.2.2) (forall₂_filter' (fun x y hxy => by rw [hxy.1, hxy.2.1]) h)) kn 0)

theorem oneT_plain {bs bs'} (h : ActsP root bs bs') (path : List Bytes) (node : Nat) (k : Bytes) :
    Plain root node (oneT ext path node bs k) (Hcl.oneVal ext.plain path bs' k) := by
  unfold oneT Hcl.oneVal onesT Hcl.ones
  exact .sub fun kn => labelsT_plain (forall₂_map' (fun x y hxy => ⟨by rw [hxy.2.1], hxy.2.2⟩) (forall₂_filter' (fun x y hxy => by rw [hxy.1, hxy.2.1]) h)) kn

theorem twoT_plain {bs bs'} (h : ActsP root bs bs') (path : List Bytes) (node : Nat) (k : Bytes) :
    Plain root node (twoT ext path node bs k) (Hcl.twoVal ext.plain path bs' k) := by
  have h2 : List.Forall₂ (fun x y => x.1 = y.1 ∧ x.2.1 = y.2.1 ∧ ∀ node, Plain root node (x.2.2 node) y.2.2) (twosT bs k) (Hcl.twos bs' k) := by
    unfold twosT Hcl.twos
    exact forall₂_map' (fun x y hxy => ⟨by rw [hxy.2.1], by rw [hxy.2.1], hxy.2.2⟩) (forall₂_filter' (fun x y hxy => by rw [hxy.1, hxy.2.1]) h)
  unfold twoT Hcl.twoVal
  rw [← forall₂_eq (forall₂_map' (S := fun x y => x = y) (f := Prod.fst) (g := Prod.fst) (fun x y hxy => hxy.1) h2)]
  refine .sub fun kn => .map _ (assignT_plain (fun l _ => .sub fun kn2 => ?_) _)
  unfold Hcl.twoVal2
  refine labelsT_plain (?_ : LabsP root (twosOfT bs k l) (Hcl.twosOf bs' k l)) kn2
  unfold twosOfT Hcl.twosOf
  exact forall₂_map' (fun x y hxy => ⟨hxy.2.1, hxy.2.2⟩) (forall₂_filter' (fun x y hxy => by rw [hxy.1]) h2)

theorem typesOf_plain {bs bs'} (h : ActsP root bs bs') (n : Nat) : typesOfT bs n = Hcl.typesOf bs' n := by
  unfold typesOfT Hcl.typesOf
  rw [forall₂_eq (forall₂_map' (S := fun x y => x = y) (f := Prod.fst) (g := Prod.fst) (fun x y hxy => hxy.1)
    (forall₂_filter' (Q := fun x => decide (x.2.1.length = n)) (fun x y hxy => by rw [hxy.2.1]) h))]

theorem blocksT_plain {bs bs'} (h : ActsP root bs bs') (path : List Bytes) (node : Nat) (obj : List (Bytes × GV)) :
    Plain root node (blocksT ext path node bs obj) (Hcl.decodeBlocks ext.plain path bs' obj) := by
  have hany : bs.any (fun x => decide (2 < x.2.1.length)) = bs'.any (fun x => decide (2 < x.2.1.length)) := by
    induction h with
    | nil => rfl
    | cons hx _ ih => simp only [List.any_cons, hx.2.1, ih]
  unfold blocksT Hcl.decodeBlocks
  rw [hany, typesOf_plain h, typesOf_plain h, typesOf_plain h]
  split
  · exact .fail
  · exact (assignT_plain (fun k _ => zeroT_plain h node k) _).bind fun obj _ =>
      (assignT_plain (fun k _ => oneT_plain h _ node k) _).bind fun obj _ => assignT_plain (fun k _ => twoT_plain h _ node k) _

theorem actsT_plain {path : List Bytes} : ∀ {blocks : List (Bytes × List Bytes × Hcl.Body)},
    (∀ x ∈ blocks, ∀ path node, Plain root node (bodyT ext root path x.2.2 node) (Hcl.decodeBody ext.plain path x.2.2)) → ∀ i,
    ActsP root (actsT ext root path i blocks) (Hcl.blockResults ext.plain path i blocks)
  | [], _, i => by
    simp only [actsT, Hcl.blockResults]
    exact .nil
  | (t, ls, body) :: r, h, i => by
    simp only [actsT, Hcl.blockResults]
    exact .cons ⟨rfl, rfl, fun node => .map _ (h (t, ls, body) (by simp) _ node)⟩ (actsT_plain (fun x hx => h x (by simp [hx])) (i + 1))

theorem bodyT_plain {body : Hcl.Body} (h : LiteralG body) : ∀ path node, Plain root node (bodyT ext root path body node) (Hcl.decodeBody ext.plain path body) := by
  induction h with
  | @mk attrs blocks ha _ ih =>
    intro path node
    simp only [bodyT, Hcl.decodeBody]
    refine (assignT_plain (fun k _ => ?_) _).bind fun obj _ => blocksT_plain (actsT_plain ih 0) path node obj
    unfold attrT Hcl.attrVal
    cases hg : GoMap.get? attrs k with
    | none => exact .fail
    | some e => exact nativeT_plain (ha (k, e) (GoMap.get?_mem hg)) node k

theorem mapT_plain {bs : Bytes} (h : LitText bs) (node : Nat) : Plain root node (mapT ext root node bs) (Hcl.decodeMap ext.plain bs) := by
  unfold mapT Hcl.decodeMap
  split
  · exact .panic
  split
  · rename_i hb
    refine (Plain.ofOut _).bind fun e he => ?_
    have hl := h.object hb.1 e he
    cases e with
    | object m =>
      cases hl with
      | object _ hv => exact nativeTO_plain (fun e he => nativeT_plain (hv e he)) node []
    | _ => exact .fail
  · refine (Plain.ofOut _).bind fun body hb => bodyT_plain (h.document body ?_) [] node
    cases hp : Hcl.parseConfig bs with
    | error e => rw [hp] at hb; cases e <;> cases hb
    | ok x => rw [hp] at hb; cases hb; rfl

theorem sliceT_plain {bs : Bytes} (h : ∀ e, Hcl.parseX bs = .ok e → Lit e) (node : Nat) : Plain root node (sliceT ext root node bs) (Hcl.decodeSlice ext.plain bs) := by
  unfold sliceT Hcl.decodeSlice
  refine (Plain.ofOut _).bind fun e he => ?_
  have hl := h e he
  cases e with
  | tuple l =>
    cases hl with
    | tuple hv => exact nativeTL_plain (fun e he => nativeT_plain (hv e he)) node 0
  | _ => exact .fail

/-! ## What `Marshal` writes is literal -/

theorem intExpr_lit (n : Int) : Lit (Hcl.intExpr n) := by
  unfold Hcl.intExpr
  split <;> constructor

theorem fltExpr_lit (q : Rat) : Lit (Hcl.fltExpr q) := by
  unfold Hcl.fltExpr
  dsimp only
  split <;> constructor

theorem scalarExpr_lit : ∀ v : GV, Lit (Hcl.scalarExpr v)
  | .str _ => .str
  | .bool true => .tru
  | .bool false => .fls
  | .int n => intExpr_lit n
  | .flt q => by
    simp only [Hcl.scalarExpr]
    split
    · exact intExpr_lit _
    · exact fltExpr_lit _
    · exact .nullCall
  | .nil => .nullCall
  | .nilList => .nullCall
  | .nilMap => .nullCall
  | .list _ => .nullCall
  | .map _ => .nullCall

theorem emptyTuple_lit : Lit (.tuple []) := .tuple fun e he => by cases he

mutual
theorem exprOf_lit : ∀ (elem : Bool) (v : GV), Lit (Hcl.exprOf elem v)
  | elem, .list l => by simp only [Hcl.exprOf]; exact .tuple (exprsOf_lit l)
  | elem, .map m => by simp only [Hcl.exprOf]; exact .object (fun e he => (membersOf_lit m e he).1) (fun e he => (membersOf_lit m e he).2)
  | elem, .nilList => by simp only [Hcl.exprOf]; exact emptyTuple_lit
  | elem, .nilMap => by simp only [Hcl.exprOf]; exact emptyTuple_lit
  | elem, .nil => by simp only [Hcl.exprOf]; split; exacts [emptyTuple_lit, .nullCall]
  | elem, .str s => by simp only [Hcl.exprOf]; split; exacts [emptyTuple_lit, .str]
  | elem, .bool v => by simp only [Hcl.exprOf]; split; exacts [emptyTuple_lit, scalarExpr_lit _]
  | elem, .int n => by simp only [Hcl.exprOf]; split; exacts [emptyTuple_lit, scalarExpr_lit _]
  | elem, .flt q => by simp only [Hcl.exprOf]; split; exacts [emptyTuple_lit, scalarExpr_lit _]
theorem exprsOf_lit : ∀ (l : List GV), ∀ e ∈ Hcl.exprsOf l, Lit e
  | [] => by simp [Hcl.exprsOf]
  | v :: l => by
    simp only [Hcl.exprsOf, List.mem_cons]
    rintro e (rfl | he)
    · exact exprOf_lit true v
    · exact exprsOf_lit l e he
theorem membersOf_lit : ∀ (m : List (Bytes × GV)), ∀ e ∈ Hcl.membersOf m, LitKey e.1 ∧ Lit e.2
  | [] => by simp [Hcl.membersOf]
  | (k, v) :: m => by
    simp only [Hcl.membersOf, List.mem_cons]
    rintro e (rfl | he)
    · exact ⟨.ident, exprOf_lit false v⟩
    · exact membersOf_lit m e he
end

theorem attrsOf_lit : ∀ (m : List (Bytes × GV)), ∀ a ∈ Hcl.attrsOf m, Lit a.2
  | [] => by simp [Hcl.attrsOf]
  | (k, v) :: m => by
    simp only [Hcl.attrsOf]
    split
    · exact attrsOf_lit m
    · simp only [List.mem_cons]
      rintro e (rfl | he)
      · exact exprOf_lit false v
      · exact attrsOf_lit m e he

mutual
theorem blocksOf_lit : ∀ (m : List (Bytes × GV)), ∀ x ∈ Hcl.blocksOf m, LiteralG x.2.2
  | [] => by simp [Hcl.blocksOf]
  | (k, v) :: m => by
    simp only [Hcl.blocksOf, List.mem_append]
    rintro x (h | h)
    · exact blocksV_lit k [] v x h
    · exact blocksOf_lit m x h
theorem blocksV_lit (k : Bytes) (ls : List Bytes) : ∀ (v : GV), ∀ x ∈ Hcl.blocksV k ls v, LiteralG x.2.2
  | .map m => by
    simp only [Hcl.blocksV]
    split
    · exact blocksH_lit k ls m
    · simp only [List.mem_singleton]
      rintro x rfl
      exact .mk (attrsOf_lit m) (blocksOf_lit m)
  | .nil => by simp [Hcl.blocksV]
  | .nilList => by simp [Hcl.blocksV]
  | .nilMap => by simp [Hcl.blocksV]
  | .list _ => by simp [Hcl.blocksV]
  | .str _ => by simp [Hcl.blocksV]
  | .bool _ => by simp [Hcl.blocksV]
  | .int _ => by simp [Hcl.blocksV]
  | .flt _ => by simp [Hcl.blocksV]
theorem blocksH_lit (k : Bytes) (ls : List Bytes) : ∀ (m : List (Bytes × GV)), ∀ x ∈ Hcl.blocksH k ls m, LiteralG x.2.2
  | [] => by simp [Hcl.blocksH]
  | (l, v) :: m => by
    simp only [Hcl.blocksH, List.mem_append]
    rintro x (h | h)
    · exact blocksV_lit k (ls ++ [l]) v x h
    · exact blocksH_lit k ls m x h
end

theorem bodyOf_lit (m : List (Bytes × GV)) : LiteralG (Hcl.bodyOf m) := .mk (attrsOf_lit m) (blocksOf_lit m)

end Verif.HclS
