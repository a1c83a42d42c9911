import Verif.Lemmas.HclStructState
/-!
# Which documents are refused, and when decoding ends
-/
set_option linter.unusedSimpArgs false
set_option linter.unusedSectionVars false

namespace Verif.HclS
open Tree (Heap Le)
open Hcl (Cty Expr)
open Det (Cls CVal KeyTy insertK ltB)

/-! ## What has been checked before the target is changed -/

theorem evalAttrs_value {ext root node attrs} : ∀ {ks h vals h'}, evalAttrs ext root node attrs ks h = .ok (vals, h') →
    ∀ k v, (k, v) ∈ vals → ∃ a vars, GoMap.get? attrs k = some a ∧ evalE ext vars a.expr = .ok v
  | [], h, vals, h', he => by cases he; intro k v hv; cases hv
  | k :: ks, h, vals, h', he => by
    simp only [evalAttrs] at he
    split at he
    · rename_i a vars ha _
      split at he
      · cases he
      rename_i cv hcv
      split at he
      · cases he
      split at he
      · cases he
      rename_i hr
      cases he
      intro x v hv
      rcases List.mem_cons.1 hv with hv | hv
      · cases hv
        exact ⟨a, vars, ha, hcv⟩
      · exact evalAttrs_value hr x v hv
    · cases he

theorem hasTag_flat {env ext nulls n fs obj ref lf} (h : loopFields env ext nulls n fs ⟨[], [], [], [], obj, ref⟩ = .ok lf)
    {l : List Fld} (hl : ∀ f ∈ l, f ∈ lf.all) {k} (hk : hasTag l k = true) : ∃ f ∈ flat env n fs, f.tag = k := by
  obtain ⟨f, hf, ht⟩ := List.any_eq_true.1 hk
  obtain ⟨l', h1, h2⟩ := loopFields_found n _ _ _ h
  have h1 : lf.all.Perm l' := by simpa [LF.all] using h1
  exact ⟨f, h2.subset (h1.mem_iff.1 (hl f hf)), by simpa using ht⟩

/-- Before the target is changed every block and every attribute that is not null has found a field. -/
theorem prepare_strict {env ext n root st node cls obj path body p} (hord : ∀ p l, (ext.ord p l).Perm l)
    (h : prepare env ext n root st node cls obj path body = .ok p) :
    (∀ x ∈ body.blocks, ∃ f ∈ flat env n (env.struct cls).fields, f.tag = x.1) ∧
    ∀ k a, GoMap.get? body.attrs k = some a → (∃ f ∈ flat env n (env.struct cls).fields, f.tag = k) ∨
      ∃ vars, evalE ext vars a.expr = .ok .null := by
  obtain ⟨h1, h2, hpre, _, _, hraw⟩ := prepare_ok h
  obtain ⟨h3, he, _, hl⟩ := prelude_ok hpre
  simp only [gohclDecode] at hraw
  split at hraw
  · cases hraw
  split at hraw
  · cases hraw
  split at hraw
  · cases hraw
  rename_i hattrs
  split at hraw
  · cases hraw
  rename_i hblocks
  constructor
  · intro x hx
    by_cases ho : hasTag p.lf.oris x.1 = true
    · exact hasTag_flat hl (fun f hf => by simp [LF.all, hf]) ho
    · by_cases hd : hasTag p.lf.decs x.1 = true
      · exact hasTag_flat hl (fun f hf => by simp [LF.all, hf]) hd
      · exact absurd (List.any_eq_true.2 ⟨x, hx, by simp [ho, hd]⟩) hblocks
  · intro k a ha
    by_cases hno : ∃ f ∈ flat env n (env.struct cls).fields, f.tag = k
    · exact Or.inl hno
    right
    have no : ∀ {l : List Fld}, (∀ f ∈ l, f ∈ p.lf.all) → hasTag l k = false := by
      intro l hl'
      by_contra hx
      exact hno (hasTag_flat hl hl' (by simpa using hx))
    have hkeys := evalAttrs_keys he
    have hk : k ∈ p.vals.map Prod.fst := by
      rw [hkeys]
      exact (hord _ _).mem_iff.2 (by
        by_contra hx
        rw [GoMap.get?_eq_none.2 hx] at ha; cases ha)
    obtain ⟨v, hv⟩ : ∃ v, GoMap.get? p.vals k = some v := by
      cases hg : GoMap.get? p.vals k with
      | none => exact absurd hk (GoMap.get?_eq_none.1 hg)
      | some v => exact ⟨v, rfl⟩
    by_cases hn : k ∈ nullKeys p.vals
    · obtain ⟨e, he', hek⟩ := List.mem_map.1 hn
      obtain ⟨hm, hnull⟩ := List.mem_filter.1 he'
      obtain ⟨a', vars, ha', hev⟩ := evalAttrs_value he k e.2 (by rw [← hek]; exact hm)
      rw [ha] at ha'; cases ha'
      refine ⟨vars, ?_⟩
      rw [hev]
      cases hx : e.2 <;> rw [hx] at hnull <;> first | rfl | cases hnull
    · exfalso
      apply hattrs
      refine List.any_eq_true.2 ⟨(k, a), GoMap.get?_mem ha, ?_⟩
      have hr : route (nullKeys p.vals) p.lf k = .plain := by
        rw [route, if_neg hn, no (fun f hf => by simp [LF.all, hf]), no (fun f hf => by simp [LF.all, hf]),
          no (fun f hf => by simp [LF.all, hf])]
        simp
      simp [routed, hr, hv, no (l := p.lf.news) (fun f hf => by simp [LF.all, hf])]

/-- A required attribute that is missing. -/
theorem prepare_required {env ext n root st node cls obj path body p} {f : Fld} (hord : ∀ p l, (ext.ord p l).Perm l)
    (hd : DistinctNames env n cls) (hm : f ∈ (env.struct cls).fields) (hf : Decodes f) (hspec : GoMap.get? obj f.name = none)
    (hplain : ∀ lf : LF, lf.addTagged env ext f = { lf with news := lf.news ++ [f] }) (hreq : required f = true)
    (h : prepare env ext n root st node cls obj path body = .ok p) : f.tag ∈ GoMap.keys body.attrs := by
  obtain ⟨h1, h2, hpre, _, _, hraw⟩ := prepare_ok h
  obtain ⟨h3, he, _, hl⟩ := prelude_ok hpre
  by_contra hno
  have hvn : f.tag ∉ p.vals.map Prod.fst := by
    rw [evalAttrs_keys he]
    exact fun hx => hno ((hord _ _).mem_iff.1 hx)
  have hn : f.tag ∉ nullKeys p.vals := by
    intro hx
    obtain ⟨e, he', hek⟩ := List.mem_map.1 hx
    exact hvn (List.mem_map.2 ⟨e, (List.mem_filter.1 he').1, hek⟩)
  obtain ⟨lf1, _, hg⟩ := loopFields_default hm hf hn hspec hl (found_nodup hd hl)
  rw [hplain] at hg
  have hin : f ∈ p.lf.news := hg.news _ (by simp)
  have hval : routed (nullKeys p.vals) p.lf p.vals .plain f.tag = none := by
    have : GoMap.get? p.vals f.tag = none := GoMap.get?_eq_none.2 hvn
    simp [routed, this]
  simp only [gohclDecode] at hraw
  split at hraw
  · cases hraw
  split at hraw
  · cases hraw
  split at hraw
  · cases hraw
  split at hraw
  · cases hraw
  split at hraw
  · cases hraw
  rename_i hmiss
  exact hmiss (List.any_eq_true.2 ⟨f, hin, by simp [hreq, hval]⟩)

/-! ## Termination -/

/-- A rank for the struct types that bounds the nesting of untagged structs. -/
structure Ranked (env : Env) (rank : Nat → Nat) (top : Nat) : Prop where
  lt : ∀ c c', Embeds env c c' → rank c' < rank c
  le : ∀ c, rank c ≤ top

/-- Nothing outside of the model runs forever. -/
structure Ends (ext : Ext) : Prop where
  eval : ∀ vars e, ext.eval vars e ≠ .error .hang
  leaf : ∀ f v, ext.leaf f v ≠ .error .hang
  attr : ∀ s h n src, ext.dynAttr s h n src ≠ .error .hang
  block : ∀ s h n body, ext.dynBlock s h n body ≠ .error .hang

theorem map_ne {α β : Type} {x : Except Fail α} (g : α → β) (h : x ≠ .error .hang) : x.map g ≠ .error .hang := by
  cases x with
  | error e => intro hx; exact h (by cases hx; rfl)
  | ok a => intro hx; cases hx

theorem rootOf_fail {vars : Vars} {n : Bytes} {x : Fail} (h : rootOf vars n = .error x) : x = .err := by
  unfold rootOf at h
  repeat' split at h
  all_goals cases h
  rfl

theorem follow_fail {ks : List Bytes} {v : Hcl.Cty} {x : Fail} (h : follow ks v = .error x) : x = .err := by
  induction ks generalizing v with
  | nil => cases h
  | cons k r ih =>
    simp only [follow] at h
    split at h
    · exact ih h
    · cases h; rfl

section
variable {ext : Ext} (he : Ends ext)
include he

theorem negOf_ends {vars e r} (hr : r ≠ .error .hang) : negOf ext vars e r ≠ .error .hang := by
  unfold negOf
  split
  · simp
  · exact he.eval _ _

theorem callOf_ends {vars n} : callOf ext vars n ≠ .error .hang := by
  unfold callOf
  split
  · simp
  · exact he.eval _ _

mutual
theorem evalE_ends (vars) : ∀ e, evalE ext vars e ≠ .error .hang
  | .str s => by simp [evalE]
  | .num q => by simp [evalE]
  | .ident n => by
    simp only [evalE]
    split
    · rename_i x hx; cases rootOf_fail hx; simp
    · intro hh; cases follow_fail hh
  | .neg e => by simp only [evalE]; exact negOf_ends he (evalE_ends vars e)
  | .call n => by simp only [evalE]; exact callOf_ends he
  | .tuple l => by simp only [evalE]; exact map_ne _ (evalL_ends vars l)
  | .object m => by simp only [evalE]; exact map_ne _ (evalO_ends vars m [])
theorem evalL_ends (vars) : ∀ l, evalL ext vars l ≠ .error .hang
  | [] => by simp [evalL]
  | e :: l => by
    simp only [evalL]
    split
    · rename_i x hx; intro hh; cases hh; exact evalE_ends vars e hx
    · exact map_ne _ (evalL_ends vars l)
theorem evalO_ends (vars) : ∀ m acc, evalO ext vars m acc ≠ .error .hang
  | [], acc => by simp [evalO]
  | (k, e) :: m, acc => by
    simp only [evalO]
    split
    · rename_i x hx; intro hh; cases hh; exact evalK_ends vars k hx
    split
    · rename_i x hx; intro hh; cases hh; exact evalE_ends vars e hx
    split
    · exact evalO_ends vars m _
    · simp
theorem evalK_ends (vars) : ∀ e, evalK ext vars e ≠ .error .hang
  | .str s => by simp [evalK]
  | .num q => by simp [evalK]
  | .ident n => by simp [evalK]
  | .neg e => by simp only [evalK]; exact negOf_ends he (evalE_ends vars e)
  | .call n => by simp [evalK]
  | .tuple l => by simp only [evalK]; exact map_ne _ (evalL_ends vars l)
  | .object m => by simp only [evalK]; exact map_ne _ (evalO_ends vars m [])
end

theorem evalAttrs_ends {root node attrs} : ∀ {ks h}, evalAttrs ext root node attrs ks h ≠ .error .hang
  | [], h => by simp [evalAttrs]
  | k :: ks, h => by
    simp only [evalAttrs]
    split
    · split
      · rename_i x hx; intro hh; cases hh; exact evalE_ends he _ _ hx
      split
      · simp
      split
      · rename_i x hx; intro hh; cases hh; exact evalAttrs_ends hx
      · simp
    · simp

theorem decodeLeaves_ends {val} : ∀ {fs}, decodeLeaves ext val fs ≠ .error .hang
  | [] => by simp [decodeLeaves]
  | f :: fs => by
    simp only [decodeLeaves]
    split
    · exact map_ne _ decodeLeaves_ends
    split
    · exact map_ne _ decodeLeaves_ends
    split
    · rename_i x hx; intro hh; cases hh; exact he.leaf _ _ hx
    · exact map_ne _ decodeLeaves_ends

theorem gohclDecode_ends {lf body val} : gohclDecode ext lf body val ≠ .error .hang := by
  simp only [gohclDecode]
  repeat (split; · simp)
  exact decodeLeaves_ends he

omit he in
theorem addBlockNodes_ends {node} : ∀ {blocks : List (Bytes × List Bytes × Body)} {h}, addBlockNodes node blocks h ≠ .error .hang
  | [], h => by simp [addBlockNodes]
  | x :: r, h => by
    simp only [addBlockNodes]
    split
    · simp
    · exact addBlockNodes_ends

omit he in
theorem oriAttrs_ends {nulls lf vals node} : ∀ {ks h}, oriAttrs nulls lf vals node ks h ≠ .error .hang
  | [], h => by simp [oriAttrs]
  | k :: ks, h => by
    simp only [oriAttrs]
    split
    · exact oriAttrs_ends
    split
    · split
      · simp
      · exact oriAttrs_ends
    · simp

end

theorem loopList_ends {env ext nulls deep} : ∀ {fs : List Fld},
    (∀ f ∈ fs, f.upper = true → f.tag = [] → ∀ c, f.ty.structOf = some c → ∀ lf, deep (env.struct c).fields lf ≠ .error .hang) →
    ∀ lf, loopList env ext nulls deep fs lf ≠ .error .hang
  | [], _, lf => by simp [loopList]
  | f :: fs, h, lf => by
    have ih := loopList_ends (ext := ext) (nulls := nulls) (fs := fs) fun g hg => h g (by simp [hg])
    simp only [loopList]
    split
    · exact ih _
    rename_i hu
    split
    · exact ih _
    split
    · exact ih _
    split
    · exact ih _
    split
    · split
      · simp
      · exact ih _
    split
    · rename_i ht
      split
      · rename_i c hc
        split
        · rename_i x hx; intro hh; cases hh
          exact h f (by simp) (by simpa using hu) ht c hc _ hx
        · exact ih _
      · exact ih _
    · exact ih _

theorem loopFields_ends {env ext nulls rank top} (hr : Ranked env rank top) : ∀ {n c}, rank c ≤ n →
    ∀ lf, loopFields env ext nulls n (env.struct c).fields lf ≠ .error .hang
  | 0, c, hn => by
    refine loopList_ends ?_
    intro f hf hu ht c' hc' lf
    have := hr.lt c c' ⟨f, hf, hu, ht, hc'⟩
    omega
  | n + 1, c, hn => by
    refine loopList_ends ?_
    intro f hf hu ht c' hc' lf
    have := hr.lt c c' ⟨f, hf, hu, ht, hc'⟩
    exact loopFields_ends hr (by omega) lf

theorem prepare_ends {env ext n root st node cls obj path body rank top} (he : Ends ext) (hr : Ranked env rank top) (hn : top ≤ n) :
    prepare env ext n root st node cls obj path body ≠ .error .hang := by
  simp only [prepare]
  split
  · rename_i x hx
    intro hh; cases hh
    simp only [prelude] at hx
    split at hx
    · rename_i y hy; cases hx; exact evalAttrs_ends he hy
    split at hx
    · rename_i y hy; cases hx; exact addBlockNodes_ends hy
    split at hx
    · rename_i y hy; cases hx; exact loopFields_ends hr (Nat.le_trans (hr.le cls) hn) _ hy
    · cases hx
  split
  · rename_i x hx; intro hh; cases hh; exact oriAttrs_ends hx
  split
  · rename_i x hx; intro hh; cases hh; exact gohclDecode_ends he hx
  · simp

def RecEnds (ext : Ext) (d : Nat) (rec : Rec) : Prop :=
  ∀ path st node c fs obj labels body, Depth ext d body → (rec path st node c fs obj labels body).2 ≠ .error .hang

section
variable {env : Env} {ext : Ext} {d : Nat} {rec : Rec} (hrec : RecEnds ext d rec)
include hrec

def BlkDepth (ext : Ext) (d : Nat) (blk : Blk) : Prop := ∀ body, blk.body = some body → Depth ext d body

theorem decodeBlock_ends {p st node tag blk cls ml} (hb : BlkDepth ext d blk) : decodeBlock rec p st node tag blk cls ml ≠ .error .hang := by
  simp only [decodeBlock]
  split
  · simp
  split
  · simp
  · simp
  · simp
  split
  · simp
  split
  · simp
  · simp
  rename_i body sub hbody _
  split
  · rename_i x hx
    intro hh; cases hh
    exact hrec _ _ _ _ _ _ _ _ (hb body hbody) (congrArg Prod.snd hx)
  · simp

omit hrec in
theorem store_ends {ty c fs} : store env ty c fs ≠ .error .hang := by
  unfold store
  split
  · simp
  · split <;> simp
  · split <;> simp
  · split <;> simp
  · simp

theorem listLoop_ends {path node tag ety first} : ∀ {blks cs st}, (∀ blk ∈ blks, BlkDepth ext d blk) →
    listLoop env rec path node tag ety first cs blks st ≠ .error .hang
  | [], cs, st, _ => by simp [listLoop]
  | blk :: blks, cs, st, hb => by
    simp only [listLoop]
    split
    · rename_i x hx; intro hh; cases hh; exact decodeBlock_ends hrec (hb blk (by simp)) hx
    split
    · rename_i x hx; intro hh; cases hh; exact store_ends hx
    split
    · rename_i x hx; intro hh; cases hh; exact listLoop_ends (fun b h => hb b (by simp [h])) hx
    · simp

theorem listMapLoop_ends {path node tag kt ety first} : ∀ {blks st acc}, (∀ blk ∈ blks, BlkDepth ext d blk) →
    listMapLoop env rec path node tag kt ety first blks st acc ≠ .error .hang
  | [], st, acc, _ => by simp [listMapLoop]
  | blk :: blks, st, acc, hb => by
    simp only [listMapLoop]
    split
    · rename_i x hx; intro hh; cases hh; exact decodeBlock_ends hrec (hb blk (by simp)) hx
    split
    · simp
    split
    · split
      · rename_i x hx; intro hh; cases hh; exact store_ends hx
      · exact listMapLoop_ends (fun b h => hb b (by simp [h]))
    · simp

omit hrec in
theorem orPanic_ends {α : Type} (o : Option α) : orPanic o ≠ .error .hang := by cases o <;> simp [orPanic]

theorem mapLoop_ends {path node tag kt ety m first} : ∀ {blks st acc}, (∀ blk ∈ blks, BlkDepth ext d blk) →
    mapLoop env rec path node tag kt ety m first blks st acc ≠ .error .hang
  | [], st, acc, _ => by simp [mapLoop]
  | blk :: blks, st, acc, hb => by
    simp only [mapLoop]
    split
    · simp
    split
    · rename_i x hx; intro hh; cases hh; exact orPanic_ends _ hx
    split
    · rename_i x hx; intro hh; cases hh; exact decodeBlock_ends hrec (hb blk (by simp)) hx
    split
    · split
      · rename_i x hx; intro hh; cases hh; exact store_ends hx
      · exact mapLoop_ends (fun b h => hb b (by simp [h]))
    · simp

theorem map2Loop_ends {path node tag kt ety m first ff} : ∀ {blks st acc}, (∀ blk ∈ blks, BlkDepth ext d blk) →
    map2Loop env rec path node tag kt ety m first ff blks st acc ≠ .error .hang
  | [], st, acc, _ => by simp [map2Loop]
  | blk :: blks, st, acc, hb => by
    simp only [map2Loop]
    split
    · rename_i x hx; intro hh; cases hh; exact orPanic_ends _ hx
    split
    · rename_i x hx; intro hh; cases hh; exact decodeBlock_ends hrec (hb blk (by simp)) hx
    split
    · split
      · rename_i x hx; intro hh; cases hh; exact store_ends hx
      · exact map2Loop_ends (fun b h => hb b (by simp [h]))
    · simp

theorem oriValue_ends {path node tag ty spec blks st} (hb : ∀ blk ∈ blks, BlkDepth ext d blk) :
    oriValue env ext rec path node tag ty spec blks st ≠ .error .hang := by
  simp only [oriValue]
  split
  · split
    · exact map_ne _ (map2Loop_ends hrec hb)
    · simp
  · split
    · exact map_ne _ (mapLoop_ends hrec hb)
    · simp
  · simp
  · split
    · exact map_ne _ (listMapLoop_ends hrec hb)
    · exact map_ne _ (listLoop_ends hrec hb)
    · simp
  · split
    · simp
    split
    · rename_i x hx; intro hh; cases hh; exact decodeBlock_ends hrec (hb _ (by simp)) hx
    · exact map_ne _ store_ends
  · simp

omit hrec in
theorem setF_ends {name v} : ∀ {fs : Fields}, setF name v fs ≠ .error .hang
  | [] => by simp [setF]
  | e :: r => by
    simp only [setF]
    split
    · simp
    · exact map_ne _ setF_ends

theorem oriStep_ends {nulls lf body vals path node f fs st} (hd : Depth ext (d + 1) body) :
    oriStep env ext rec nulls lf body vals path node f fs st ≠ .error .hang := by
  have hb : ∀ blk ∈ oriBlocks ext nulls lf body vals f.tag, BlkDepth ext d blk := by
    intro blk hblk
    cases hd with
    | @mk attrs blocks _ h1 h2 =>
      simp only [oriBlocks, Body.attrs, Body.blocks, List.mem_append, List.mem_map, List.mem_filter] at hblk
      rcases hblk with hblk | ⟨x, ⟨hx, _⟩, rfl⟩
      · split at hblk
        · rename_i a _ ha
          exact h1 _ (GoMap.get?_mem ha) blk hblk
        · cases hblk
      · intro body hb
        cases hb
        exact h2 x hx
  simp only [oriStep]
  generalize oriBlocks ext nulls lf body vals f.tag = blks at hb
  cases blks with
  | nil => simp
  | cons blk blks =>
    simp only
    split
    · rename_i x hx; intro hh; cases hh; exact oriValue_ends hrec hb hx
    · simp
    · exact map_ne _ setF_ends

end

theorem decStep_ends {ext : Ext} (he : Ends ext) {nulls lf body vals node f fs st} :
    decStep ext nulls lf body vals node f fs st ≠ .error .hang := by
  have fin : ∀ {r : Except Fail (Val × Heap Cty)}, r ≠ .error .hang →
      (match some r with
        | none => .ok (fs, st)
        | some (.error e) => .error e
        | some (.ok (v, h)) =>
          if f.ty = .slice .any ∨ f.ty = .map .str .any then (setF f.name v fs).map fun fs => (fs, { st with heap := h })
          else .error .panic : Except Fail (Fields × St)) ≠ .error .hang := by
    intro r hr
    cases r with
    | error e => intro hh; cases hh; exact hr rfl
    | ok w =>
      simp only
      split
      · exact map_ne _ setF_ends
      · simp
  have viaBlocks : (match (match body.blocks.filter fun x => x.1 = f.tag && !hasTag lf.oris x.1 with
          | x :: _ => some (ext.dynBlock (match f.ty with | .slice _ => true | _ => false) st.heap node x.2.2)
          | [] => none) with
        | none => .ok (fs, st)
        | some (.error e) => .error e
        | some (.ok (v, h)) =>
          if f.ty = .slice .any ∨ f.ty = .map .str .any then (setF f.name v fs).map fun fs => (fs, { st with heap := h })
          else .error .panic : Except Fail (Fields × St)) ≠ .error .hang := by
    cases hx : body.blocks.filter fun x => x.1 = f.tag && !hasTag lf.oris x.1 with
    | nil => simp
    | cons x r => exact fin (he.block _ _ _ _)
  simp only [decStep]
  cases hr : routed nulls lf vals .dec f.tag with
  | none => exact viaBlocks
  | some cv =>
    cases ha : GoMap.get? body.attrs f.tag with
    | none => exact viaBlocks
    | some a => exact fin (he.attr _ _ _ _)

theorem stateless_ends {s : Step} {g : Fields → Except Fail Fields} (hs : ∀ fs st, s fs st = (g fs).map fun fs => (fs, st))
    (hg : ∀ fs, g fs ≠ .error .hang) (fs st) : s fs st ≠ .error .hang := by
  rw [hs]
  exact map_ne _ (hg fs)

theorem labelAttrStep_ends (val f fs st) : labelAttrStep val f fs st ≠ .error .hang := by
  simp only [labelAttrStep]
  split
  · simp
  · split
    · exact map_ne _ setF_ends
    · simp
  · simp

theorem labelStep_ends (x fs st) : labelStep x fs st ≠ .error .hang := by
  simp only [labelStep]
  split
  · rename_i e hx
    intro hh; cases hh
    simp only [getF] at hx
    split at hx <;> cases hx
  · split
    · exact map_ne _ setF_ends
    · simp
  · simp

theorem newStep_ends (val x fs st) : newStep val x fs st ≠ .error .hang := by
  simp only [newStep]
  split
  · exact map_ne _ setF_ends
  · simp

theorem runSteps_ends {l : List Step} (hl : ∀ s ∈ l, ∀ fs st, s fs st ≠ .error .hang) : ∀ fs st, (runSteps l fs st).2 ≠ .error .hang := by
  induction l with
  | nil => intro fs st; simp [runSteps]
  | cons s l ih =>
    intro fs st
    simp only [runSteps]
    split
    · exact ih (fun s hs => hl s (by simp [hs])) _ _
    · rename_i e hx
      intro hh
      simp only [Except.error.injEq] at hh
      subst hh
      exact hl s (by simp) _ _ hx

theorem decode_ends {env ext root rank top} (he : Ends ext) (hr : Ranked env rank top) :
    ∀ {d n}, d + top ≤ n → RecEnds ext d (decode env ext root n)
  | 0, n, _ => by intro path st node c fs obj labels body hd; cases hd
  | d + 1, 0, h => by omega
  | d + 1, n + 1, h => by
    intro path st node c fs obj labels body hd
    simp only [decode, decodeStruct]
    split
    · rename_i e hx
      intro hh
      simp only [Except.error.injEq] at hh
      subst hh
      exact prepare_ends he hr (by omega) hx
    · refine runSteps_ends ?_ _ _
      intro s hs
      simp only [steps, List.mem_append] at hs
      rcases hs with (((hs | hs) | hs) | hs) | hs
      · obtain ⟨g, _, rfl⟩ := List.mem_map.1 hs
        exact labelAttrStep_ends _ _
      · simp only [labelSteps] at hs
        split at hs
        · obtain ⟨g, _, rfl⟩ := List.mem_map.1 hs
          exact labelStep_ends _
        · cases hs
      · obtain ⟨g, _, rfl⟩ := List.mem_map.1 hs
        exact newStep_ends _ _
      · obtain ⟨g, _, rfl⟩ := List.mem_map.1 hs
        exact fun _ _ => decStep_ends he
      · obtain ⟨g, _, rfl⟩ := List.mem_map.1 hs
        exact fun _ _ => oriStep_ends (decode_ends he hr (d := d) (n := n) (by omega)) hd

/-! ## Objects in the source of an attribute -/

theorem matchObj_piece {p rest : Bytes} (hp : p ≠ []) (h : (125 : UInt8) ∉ p) : matchObj (123 :: (p ++ 125 :: rest)) = some (p, rest) := by
  have h1 : (p ++ 125 :: rest).takeWhile (· ≠ 125) = p := by
    rw [List.takeWhile_append_of_pos (by intro a ha; simp; rintro rfl; exact h ha)]
    simp
  have h2 : (p ++ 125 :: rest).dropWhile (· ≠ 125) = 125 :: rest := by
    rw [List.dropWhile_append_of_pos (by intro a ha; simp; rintro rfl; exact h ha)]
    simp
  cases p with
  | nil => exact absurd rfl hp
  | cons c p =>
    simp only [matchObj, h1, h2]

theorem piecesN_skip {sep rest : Bytes} (h : (123 : UInt8) ∉ sep) (m) : piecesN (sep.length + m) (sep ++ rest) = piecesN m rest := by
  induction sep with
  | nil => simp
  | cons c sep ih =>
    have hc : c ≠ 123 := by rintro rfl; exact h (by simp)
    have hm : matchObj (c :: (sep ++ rest)) = none := by
      unfold matchObj
      split
      · rename_i heq; exact absurd (List.cons.inj heq).1 hc
      · rfl
    have : (c :: sep).length + m = (sep.length + m) + 1 := by simp; omega
    rw [this, List.cons_append, piecesN, hm]
    exact ih (fun hx => h (by simp [hx]))

theorem piecesN_nil : ∀ m, piecesN m [] = []
  | 0 => rfl
  | m + 1 => by simp only [piecesN, matchObj, List.tail_nil]; exact piecesN_nil m

theorem piecesN_objects {l : List (Bytes × Bytes)} (hs : ∀ x ∈ l, (123 : UInt8) ∉ x.1) (hp : ∀ x ∈ l, x.2 ≠ [] ∧ (125 : UInt8) ∉ x.2)
    {tail : Bytes} (ht : (123 : UInt8) ∉ tail) : ∀ m, (objectsText l tail).length ≤ m → piecesN m (objectsText l tail) = l.map Prod.snd := by
  induction l with
  | nil =>
    intro m hm
    simp only [objectsText, List.map_nil] at hm ⊢
    obtain ⟨k, rfl⟩ := Nat.exists_eq_add_of_le hm
    have := piecesN_skip (rest := []) ht k
    simpa [piecesN_nil] using this
  | cons x l ih =>
    intro m hm
    simp only [objectsText, List.length_append, List.length_cons] at hm
    simp only [objectsText, List.map_cons]
    obtain ⟨k, rfl⟩ := Nat.exists_eq_add_of_le (show x.1.length ≤ m by omega)
    rw [piecesN_skip (hs x (by simp))]
    cases k with
    | zero => omega
    | succ k =>
      rw [piecesN, matchObj_piece (hp x (by simp)).1 (hp x (by simp)).2]
      simp only [List.cons.injEq, true_and]
      exact ih (fun y hy => hs y (by simp [hy])) (fun y hy => hp y (by simp [hy])) k (by omega)

end Verif.HclS
