import Verif.Lemmas.HclValid
import Verif.Lemmas.Cty
import Mathlib.Tactic.NormNum
import Mathlib.Tactic.Linarith
import Mathlib.Tactic.FieldSimp
set_option linter.unusedSimpArgs false
/-! Decoding the tree of the specification gives the data back. -/
namespace Verif.Hcl
open Det (insertK ltB ltB_lin get?_insertK)

/-! ## Numbers -/

theorem isFloat_int {n : Nat} {p : Nat} (h : n < 2 ^ p) : IsFloat p (n : Rat) :=
  ⟨n, 0, by simp, by
    rw [abs_of_nonneg (by positivity)]; exact_mod_cast h⟩

theorem natAbs_rat (z : Int) : ((z.natAbs : Nat) : Rat) = |(z : Rat)| := by rw [Nat.cast_natAbs, Int.cast_abs]

theorem numVal_int {n : Nat} (h : n ≤ 2 ^ 63) : numVal n 0 0 = n := by
  unfold numVal
  have : ((n : Rat) + ((0 : Nat) : Rat) / (10 : Rat) ^ 0) = n := by simp
  rw [this]
  exact rd_exact (isFloat_int (lt_of_le_of_lt h (Nat.pow_lt_pow_right (by decide) (by decide))))

theorem native_num (ext : Ext) {q : Rat} {v : GV} (h : ctyNumberToNative q = .ok v) : nativeE ext (.num q) = .ok v := by
  simp [nativeE, evalE, Out.bind, ctyToNative, h, Out.ofExcept]

theorem native_neg (ext : Ext) {q : Rat} {v : GV} (h : ctyNumberToNative (-q) = .ok v) :
    nativeE ext (.neg (.num q)) = .ok v := by
  simp [nativeE, evalE, Out.bind, ctyToNative, h, Out.ofExcept]

theorem native_int (ext : Ext) {n : Int} (h : IsInt64 n) : nativeE ext (intExpr n) = .ok (.int n) := by
  obtain ⟨z, e, h1, h2⟩ := h
  have e : n = z := by exact_mod_cast e
  subst e
  unfold intExpr
  split
  · rename_i h0
    refine native_neg ext ?_
    rw [numVal_int (by omega)]
    have : -((n.natAbs : Nat) : Rat) = (n : Rat) := by
      have h0' : (n : Rat) < 0 := by exact_mod_cast h0
      rw [natAbs_rat, abs_of_neg h0']; simp
    rw [this]
    exact cn_int h1 h2
  · rename_i h0
    refine native_num ext ?_
    rw [numVal_int (by omega)]
    have : ((n.natAbs : Nat) : Rat) = (n : Rat) := by
      have h0' : (0 : Rat) ≤ n := by exact_mod_cast not_lt.1 h0
      rw [natAbs_rat, abs_of_nonneg h0']
    rw [this]
    exact cn_int h1 h2

theorem native_flt (ext : Ext) {q : Rat} (h0 : 0 < q) (h1 : ¬ IsWhole q) (h2 : IsFloat 24 q) (h3 : IsWhole (q * 1000000)) :
    nativeE ext (fltExpr q) = .ok (.flt q) := by
  obtain ⟨z, hz⟩ := h3
  have hzpos : 0 ≤ z := by
    have : (0 : Rat) ≤ z := by rw [← hz]; positivity
    exact_mod_cast this
  unfold fltExpr
  simp only [not_lt.2 h0.le, if_false, hz, roundEven_int]
  refine native_num ext ?_
  have key : ((z.natAbs / 1000000 : Nat) : Rat) + ((z.natAbs % 1000000 : Nat) : Rat) / (10 : Rat) ^ 6 = q := by
    have e1 : (z.natAbs : Rat) = q * 1000000 := by
      rw [hz]
      have h0' : (0 : Rat) ≤ z := by exact_mod_cast hzpos
      rw [natAbs_rat, abs_of_nonneg h0']
    have e2 : ((z.natAbs / 1000000 : Nat) : Rat) * 1000000 + ((z.natAbs % 1000000 : Nat) : Rat) = q * 1000000 := by
      rw [← e1]
      have := Nat.div_add_mod z.natAbs 1000000
      have : z.natAbs / 1000000 * 1000000 + z.natAbs % 1000000 = z.natAbs := by omega
      exact_mod_cast this
    have : ((10 : Rat) ^ 6) = 1000000 := by norm_num
    rw [this]
    field_simp
    linarith
  unfold numVal
  rw [key, rd_exact (h2.mono (by decide))]
  exact cn_f32 h0 h1 h2

/-! ## Maps -/

theorem sorted_canonM (m : List (Bytes × GV)) : SortedK (canonM m) := by
  induction m with
  | nil => exact .nil
  | cons e m ih => obtain ⟨k, v⟩ := e; simp only [canonM]; exact ih.insert

theorem get?_canonM (m : List (Bytes × GV)) (k : Bytes) : GoMap.get? (canonM m) k = (GoMap.get? m k).map GV.canon := by
  induction m with
  | nil => simp [canonM, GoMap.get?]
  | cons e m ih =>
    obtain ⟨k', v⟩ := e
    simp only [canonM, get?_insertK, GoMap.get?, ih]
    split <;> simp

/-- Assigning the values of a map one by one, in any order. -/
theorem assign_canon {m : List (Bytes × GV)} {val : Bytes → Out GV} {ks : List Bytes}
    (hk : ∀ k, k ∈ ks ↔ k ∈ GoMap.keys m) (hv : ∀ k v, GoMap.get? m k = some v → val k = .ok v.canon) :
    assignAll val ks [] = .ok (canonM m) := by
  obtain ⟨res, h⟩ := assignAll_total (val := val) ks [] fun k h => by
    have := GoMap.get?_isSome.2 ((hk k).1 h)
    obtain ⟨v, hv'⟩ := Option.isSome_iff_exists.1 this
    exact ⟨_, hv k v hv'⟩
  rw [h]
  obtain ⟨h1, h2, h3⟩ := assignAll_ok ks h
  congr 1
  refine (h3 .nil).ext (sorted_canonM m) fun k => ?_
  rw [get?_canonM]
  by_cases hk' : k ∈ ks
  · obtain ⟨v, h4, h5⟩ := h2 k hk'
    have := GoMap.get?_isSome.2 ((hk k).1 hk')
    obtain ⟨w, hw⟩ := Option.isSome_iff_exists.1 this
    rw [hv k w hw] at h4
    cases h4
    rw [h5, hw]; rfl
  · rw [h1 k hk', GoMap.get?_eq_none.2 (fun h => hk' ((hk k).2 h))]; rfl

/-! ## Expressions -/

section
variable (ext : Ext)

theorem native_scalar {v : GV} (h : exact ext.nfc v) (hs : (scalarText v).isSome = true) :
    nativeE ext (scalarExpr v) = .ok v.canon := by
  cases v with
  | str s =>
    simp only [exact] at h
    simp [scalarExpr, nativeE, evalE, Out.bind, ctyToNative, Out.ofExcept, GV.canon, h]
  | bool v =>
    have hft : ¬ (b "false" = b "true") := by decide
    cases v <;> simp [scalarExpr, nativeE, evalE, Out.bind, ctyToNative, Out.ofExcept, GV.canon, hft]
  | int n => exact native_int ext h
  | flt q =>
    simp only [exact, ExactNum] at h
    simp only [scalarExpr, GV.canon]
    rcases h with h | ⟨h0, h1, h2, h3⟩
    · obtain ⟨n, rfl, h1, h2⟩ := h
      rw [cn_int h1 h2]
      simp only [Rat.den_intCast, if_true, Rat.num_intCast]
      exact native_int ext ⟨n, rfl, h1, h2⟩
    · rw [cn_f32 h0 h1 h2]
      have : ¬ q.den = 1 := fun h => h1 ((den_one_iff q).1 h)
      simp only [this, if_false]
      exact native_flt ext h0 h1 h2 h3
  | _ => simp [scalarText] at hs

theorem foldl_canon (m obj : List (Bytes × GV)) (hn : (m.map Prod.fst).Nodup) (k : Bytes) :
    GoMap.get? (m.foldl (fun o e => insertK ltB e.1 e.2.canon o) obj) k =
      ((GoMap.get? m k).map GV.canon).or (GoMap.get? obj k) := by
  induction m generalizing obj with
  | nil => simp [GoMap.get?]
  | cons e m ih =>
    obtain ⟨k', v'⟩ := e
    simp only [List.map_cons, List.nodup_cons] at hn
    rw [List.foldl_cons, ih _ hn.2, get?_insertK]
    simp only [GoMap.get?]
    by_cases h : k' = k
    · subst h
      have : GoMap.get? m k' = none := GoMap.get?_eq_none.2 hn.1
      simp [this]
    · simp [h]

theorem foldl_sorted (m obj : List (Bytes × GV)) (h : SortedK obj) :
    SortedK (m.foldl (fun o e => insertK ltB e.1 e.2.canon o) obj) := by
  induction m generalizing obj with
  | nil => exact h
  | cons e m ih => exact ih _ h.insert

mutual
theorem native_expr (elem : Bool) : ∀ v : GV, exact ext.nfc v → (elem = true → NonZero v) →
    nativeE ext (exprOf elem v) = .ok v.canon
  | .list l, h, _ => by
    simp only [exact] at h
    simp only [exprOf, nativeE, native_exprs l h, Out.map, Out.bind, GV.canon]
  | .map m, h, _ => by
    simp only [exact] at h
    simp only [exprOf, nativeE, native_members m [] h.1, Out.map, Out.bind, GV.canon]
    congr 2
    refine (foldl_sorted m [] .nil).ext (sorted_canonM m) fun k => ?_
    rw [foldl_canon m [] h.2, get?_canonM]
    simp [GoMap.get?]
  | .nilList, _, _ => by simp [exprOf, nativeE, nativeL, Out.map, Out.bind, mkList, GV.canon]
  | .nilMap, h, _ => by simp [exact] at h
  | .nil, _, hz => by
    cases elem with
    | true => exact absurd (hz rfl) (by simp [NonZero])
    | false => simp [exprOf, nativeE, GV.canon]
  | .str s, h, hz => by
    have := native_scalar ext (v := .str s) h rfl
    cases elem with
    | true => rw [exprOf_elem _ rfl, if_neg (by simpa [NonZero, GV.zeroScalar] using hz rfl)]; exact this
    | false => simpa [exprOf, scalarExpr] using this
  | .bool v, h, hz => by
    have := native_scalar ext (v := .bool v) h rfl
    cases elem with
    | true => rw [exprOf_elem _ rfl, if_neg (by simpa [NonZero, GV.zeroScalar] using hz rfl)]; exact this
    | false => simpa [exprOf] using this
  | .int n, h, hz => by
    have := native_scalar ext (v := .int n) h rfl
    cases elem with
    | true => rw [exprOf_elem _ rfl, if_neg (by simpa [NonZero, GV.zeroScalar] using hz rfl)]; exact this
    | false => simpa [exprOf] using this
  | .flt q, h, hz => by
    have := native_scalar ext (v := .flt q) h rfl
    cases elem with
    | true => rw [exprOf_elem _ rfl, if_neg (by simpa [NonZero, GV.zeroScalar] using hz rfl)]; exact this
    | false => simpa [exprOf] using this
theorem native_exprs : ∀ l : List GV, exactL ext.nfc l → nativeL ext (exprsOf l) = .ok (canonL l)
  | [], _ => by simp [exprsOf, nativeL, canonL]
  | v :: l, h => by
    simp only [exactL] at h
    simp only [exprsOf, nativeL, native_expr true v h.2.1 (fun _ => h.1), native_exprs l h.2.2, Out.bind, Out.map, canonL]
theorem native_members : ∀ (m : List (Bytes × GV)) (obj : List (Bytes × GV)), exactM ext.nfc m →
    nativeO ext (membersOf m) obj = .ok (m.foldl (fun o e => insertK ltB e.1 e.2.canon o) obj)
  | [], obj, _ => by simp [membersOf, nativeO]
  | (k, v) :: m, obj, h => by
    simp only [exactM] at h
    simp only [membersOf, nativeO, keyE, native_expr false v h.1 (by simp), Out.bind, native_members m _ h.2, List.foldl_cons]
end
end

/-! ## Blocks -/

mutual
/-- The results of the blocks. -/
def resOf : List (Bytes × GV) → List (Bytes × List Bytes × GV)
  | [] => []
  | (k, v) :: m => resV k [] v ++ resOf m
def resV (k : Bytes) (ls : List Bytes) : GV → List (Bytes × List Bytes × GV)
  | .map m => if byLabels ls.length m then resH k ls m else [(k, ls, .map (canonM m))]
  | _ => []
def resH (k : Bytes) (ls : List Bytes) : List (Bytes × GV) → List (Bytes × List Bytes × GV)
  | [] => []
  | (l, v) :: m => resV k (ls ++ [l]) v ++ resH k ls m
end

def okR (x : Bytes × List Bytes × GV) : Bytes × List Bytes × Out GV := (x.1, x.2.1, .ok x.2.2)

mutual
theorem resV_type (k : Bytes) (ls : List Bytes) : ∀ v, ∀ x ∈ resV k ls v, x.1 = k
  | .map m => by
    simp only [resV]
    split
    · exact resH_type k ls m
    · simp
  | .nil => by simp [resV]
  | .nilList => by simp [resV]
  | .nilMap => by simp [resV]
  | .list _ => by simp [resV]
  | .str _ => by simp [resV]
  | .bool _ => by simp [resV]
  | .int _ => by simp [resV]
  | .flt _ => by simp [resV]
theorem resH_type (k : Bytes) (ls : List Bytes) : ∀ m, ∀ x ∈ resH k ls m, x.1 = k
  | [] => by simp [resH]
  | (l, v) :: m => by
    simp only [resH, List.mem_append]
    rintro x (h | h)
    · exact resV_type k _ v x h
    · exact resH_type k ls m x h
end

/-- The results of one type are those of the member. -/
theorem resOf_filter {m : List (Bytes × GV)} (hn : (m.map Prod.fst).Nodup) (k : Bytes) :
    (resOf m).filter (fun x => decide (x.1 = k)) = match GoMap.get? m k with
      | some v => resV k [] v
      | none => [] := by
  induction m with
  | nil => simp [resOf, GoMap.get?]
  | cons e m ih =>
    obtain ⟨k', v⟩ := e
    simp only [List.map_cons, List.nodup_cons] at hn
    simp only [resOf, List.filter_append, ih hn.2, GoMap.get?]
    by_cases h : k' = k
    · subst h
      have h0 : GoMap.get? m k' = none := GoMap.get?_eq_none.2 hn.1
      simp only [h0, if_true, List.append_nil, List.filter_eq_self, decide_eq_true_eq]
      exact resV_type k' [] v
    · rw [if_neg h]
      have : (resV k' [] v).filter (fun x => decide (x.1 = k)) = [] := by
        rw [List.filter_eq_nil_iff]
        intro x hx
        rw [resV_type k' [] v x hx]
        simpa using h
      rw [this, List.nil_append]

/-- The blocks of a map of plain maps. -/
theorem resH_flat (k : Bytes) (ls : List Bytes) {m : List (Bytes × GV)} (hm : ∀ e ∈ m, e.2.isMap = true ∧ e.2 ≠ .nilMap)
    (h : ∀ e ∈ m, e.2.labelled (ls.length + 1) = false) :
    resH k ls m = m.map fun e => (k, ls ++ [e.1], e.2.canon) := by
  induction m with
  | nil => rfl
  | cons e m ih =>
    obtain ⟨l, v⟩ := e
    have h1 := hm (l, v) (by simp)
    have h2 := h (l, v) (by simp)
    simp only [resH, ih (fun e he => hm e (by simp [he])) (fun e he => h e (by simp [he])), List.map_cons]
    cases v with
    | map m' =>
      simp only [GV.labelled] at h2
      simp [resV, h2, GV.canon]
    | nilMap => simp at h1
    | _ => simp [GV.isMap] at h1

theorem byLabels_two (m : List (Bytes × GV)) {d : Nat} (h : 2 ≤ d) : byLabels d m = false := by
  simp only [byLabels, Bool.and_eq_false_iff, decide_eq_false_iff_not]
  exact .inr (by omega)

theorem labelled_two (v : GV) {d : Nat} (h : 2 ≤ d) : v.labelled d = false := by
  cases v <;> simp [GV.labelled, byLabels_two _ h]

/-- The members of a map written with labels are maps. -/
theorem byLabels_maps {d : Nat} {m : List (Bytes × GV)} (h : byLabels d m = true) (hok : okLabels d m) :
    m ≠ [] ∧ ∀ e ∈ m, e.2.isMap = true ∧ e.2 ≠ .nilMap := by
  simp only [byLabels, Bool.and_eq_true, List.all_eq_true, Bool.not_eq_true', List.isEmpty_eq_false_iff] at h
  refine ⟨h.1.1, fun e he => ⟨h.1.2 e he, ?_⟩⟩
  clear h
  induction m with
  | nil => simp at he
  | cons x m ih =>
    obtain ⟨l, v⟩ := x
    simp only [okLabels] at hok
    rcases List.mem_cons.1 he with rfl | he
    · rintro h
      simp only at h
      subst h
      simp [okLine] at hok
    · exact ih hok.2.2 he

theorem okLabels_mem {d : Nat} {m : List (Bytes × GV)} (h : okLabels d m) {e : Bytes × GV} (he : e ∈ m) : okLine (d + 1) e.2 := by
  induction m with
  | nil => simp at he
  | cons x m ih =>
    obtain ⟨l, v⟩ := x
    simp only [okLabels] at h
    rcases List.mem_cons.1 he with rfl | he
    · exact h.2.1
    · exact ih h.2.2 he

theorem okBody_mem {m : List (Bytes × GV)} (h : okBody m) {e : Bytes × GV} (he : e ∈ m) : okLine 0 e.2 := by
  induction m with
  | nil => simp at he
  | cons x m ih =>
    obtain ⟨l, v⟩ := x
    simp only [okBody] at h
    rcases List.mem_cons.1 he with rfl | he
    · exact h.2.1
    · exact ih h.2.2 he

theorem exactM_mem {nfc : Bytes → Bytes} {m : List (Bytes × GV)} (h : exactM nfc m) {e : Bytes × GV} (he : e ∈ m) : exact nfc e.2 := by
  induction m with
  | nil => simp at he
  | cons x m ih =>
    obtain ⟨l, v⟩ := x
    simp only [exactM] at h
    rcases List.mem_cons.1 he with rfl | he
    · exact h.1
    · exact ih h.2 he

theorem uniformM_mem {m : List (Bytes × GV)} (h : uniformM m) {e : Bytes × GV} (he : e ∈ m) : uniform 0 e.2 := by
  induction m with
  | nil => simp at he
  | cons x m ih =>
    obtain ⟨l, v⟩ := x
    simp only [uniformM] at h
    rcases List.mem_cons.1 he with rfl | he
    · exact h.1
    · exact ih h.2 he

theorem lastO_map {m : List (Bytes × GV)} (hn : (m.map Prod.fst).Nodup) {k : Bytes} {v : GV} (h : GoMap.get? m k = some v) :
    lastO (m.map fun e => (e.1, Out.ok e.2.canon)) k = .ok v.canon := by
  have hf : m.filter (fun e => decide (e.1 = k)) = [(k, v)] := by
    induction m with
    | nil => simp [GoMap.get?] at h
    | cons e m ih =>
      obtain ⟨k', v'⟩ := e
      simp only [List.map_cons, List.nodup_cons] at hn
      simp only [GoMap.get?] at h
      by_cases hk : k' = k
      · subst hk
        rw [if_pos rfl] at h
        cases h
        have : m.filter (fun e => decide (e.1 = k')) = [] := by
          rw [List.filter_eq_nil_iff]
          intro x hx
          simp only [decide_eq_true_eq]
          rintro rfl
          exact hn.1 (List.mem_map.2 ⟨x, hx, rfl⟩)
        simp [List.filter_cons, this]
      · rw [if_neg hk] at h
        simp [List.filter_cons, hk, ih hn.2 h]
  unfold lastO
  have : (m.map fun e => (e.1, Out.ok e.2.canon)).filter (fun e => decide (e.1 = k)) =
      (m.filter fun e => decide (e.1 = k)).map fun e => (e.1, Out.ok e.2.canon) := by
    rw [List.filter_map]; rfl
  rw [this, hf]
  rfl

section
variable {ext : Ext} (ho : ∀ p ks, (ext.ord p ks).Perm ks)

theorem decodeBlocks_total {path : List Bytes} {bs : Blocks} (obj : List (Bytes × GV)) (h : ∀ x ∈ bs, x.2.1.length ≤ 2)
    (h0 : ∀ p, ∀ k ∈ ext.ord p (typesOf bs 0), ∃ v, zeroVal bs k = .ok v)
    (h1 : ∀ p q, ∀ k ∈ ext.ord p (typesOf bs 1), ∃ v, oneVal ext q bs k = .ok v)
    (h2 : ∀ p q, ∀ k ∈ ext.ord p (typesOf bs 2), ∃ v, twoVal ext q bs k = .ok v) :
    ∃ m, decodeBlocks ext path bs obj = .ok m := by
  unfold decodeBlocks
  have : bs.any (fun x => decide (2 < x.2.1.length)) = false := by
    rw [List.any_eq_false]
    intro x hx
    have := h x hx
    simp only [decide_eq_true_eq]; omega
  rw [this]
  simp only [Bool.false_eq_true, if_false]
  obtain ⟨o1, e1⟩ := assignAll_total (val := zeroVal bs) (ext.ord (path ++ [b "0"]) (typesOf bs 0)) obj (h0 _)
  obtain ⟨o2, e2⟩ := assignAll_total (val := oneVal ext (path ++ [b "1"]) bs) (ext.ord (path ++ [b "1"]) (typesOf bs 1)) o1 (h1 _ _)
  obtain ⟨o3, e3⟩ := assignAll_total (val := twoVal ext (path ++ [b "2"]) bs) (ext.ord (path ++ [b "2"]) (typesOf bs 2)) o2 (h2 _ _)
  exact ⟨o3, by rw [e1]; simp only [Out.bind]; rw [e2]; simp only [Out.bind]; rw [e3]⟩

/-! ### The blocks of one type -/

theorem zeros_filter (bs : Blocks) (k : Bytes) :
    zeros bs k = ((bs.filter fun x => decide (x.1 = k)).filter fun x => decide (x.2.1.length = 0)).map fun x => x.2.2 := by
  unfold zeros
  rw [List.filter_filter]
  congr 2; funext x; exact Bool.and_comm _ _

theorem ones_filter (bs : Blocks) (k : Bytes) :
    ones bs k = ((bs.filter fun x => decide (x.1 = k)).filter fun x => decide (x.2.1.length = 1)).map
      fun x => (x.2.1.headD [], x.2.2) := by
  unfold ones
  rw [List.filter_filter]
  congr 2; funext x; exact Bool.and_comm _ _

theorem twos_filter (bs : Blocks) (k : Bytes) :
    twos bs k = ((bs.filter fun x => decide (x.1 = k)).filter fun x => decide (x.2.1.length = 2)).map
      fun x => (x.2.1.headD [], x.2.1.tail.headD [], x.2.2) := by
  unfold twos
  rw [List.filter_filter]
  congr 2; funext x; exact Bool.and_comm _ _

theorem mem_types_filter {bs : Blocks} {n : Nat} {k : Bytes} :
    k ∈ typesOf bs n ↔ ∃ x ∈ bs.filter (fun x => decide (x.1 = k)), x.2.1.length = n := by
  rw [mem_typesOf]
  constructor
  · rintro ⟨x, h1, h2, h3⟩; exact ⟨x, List.mem_filter.2 ⟨h1, by simpa using h2⟩, h3⟩
  · rintro ⟨x, h1, h3⟩
    have := List.mem_filter.1 h1
    exact ⟨x, this.1, by simpa using this.2, h3⟩

/-- The entries of a map. -/
def GV.entries : GV → List (Bytes × GV)
  | .map m => m
  | _ => []

theorem resH_deep (k : Bytes) {m : List (Bytes × GV)} (h : ∀ e ∈ m, e.2.labelled 1 = true)
    (hmm : ∀ e ∈ m, ∀ f ∈ e.2.entries, f.2.isMap = true ∧ f.2 ≠ .nilMap) :
    resH k [] m = m.flatMap fun e => e.2.entries.map fun f => (k, [e.1, f.1], f.2.canon) := by
  induction m with
  | nil => rfl
  | cons e m ih =>
    obtain ⟨l, v⟩ := e
    have h1 := h (l, v) (by simp)
    have h2 := hmm (l, v) (by simp)
    simp only [resH, ih (fun e he => h e (by simp [he])) (fun e he => hmm e (by simp [he])), List.flatMap_cons]
    congr 1
    cases v with
    | map m' =>
      simp only [GV.labelled] at h1
      simp only [GV.entries] at h2 ⊢
      simp only [resV, List.nil_append, List.length_singleton, h1, if_true]
      rw [resH_flat k [l] h2 fun e _ => labelled_two _ (by simp)]
      rfl
    | _ => simp [GV.labelled] at h1

include ho in
/-- How the blocks of one type are decoded. -/
theorem member_blocks {bs : Blocks} {k : Bytes} {v : GV}
    (hb : bs.filter (fun x => decide (x.1 = k)) = (resV k [] v).map okR)
    (hok : okLine 0 v) (hex : exact ext.nfc v) (hun : uniform 0 v) :
    (v.isMap = false ∧ k ∉ typesOf bs 0 ∧ k ∉ typesOf bs 1 ∧ k ∉ typesOf bs 2) ∨
    (v.isMap = true ∧ k ∈ typesOf bs 0 ∧ k ∉ typesOf bs 1 ∧ k ∉ typesOf bs 2 ∧ zeroVal bs k = .ok v.canon) ∨
    (v.isMap = true ∧ k ∉ typesOf bs 0 ∧ k ∈ typesOf bs 1 ∧ k ∉ typesOf bs 2 ∧ ∀ p, oneVal ext p bs k = .ok v.canon) ∨
    (v.isMap = true ∧ k ∉ typesOf bs 0 ∧ k ∉ typesOf bs 1 ∧ k ∈ typesOf bs 2 ∧ ∀ p, twoVal ext p bs k = .ok v.canon) := by
  cases v with
  | map m =>
    right
    simp only [okLine] at hok
    simp only [exact] at hex
    simp only [uniform] at hun
    simp only [resV, List.length_nil] at hb
    by_cases hh : byLabels 0 m = true
    · right
      rw [if_pos hh] at hb
      obtain ⟨hne, hmaps⟩ := byLabels_maps hh (hok.1 hh)
      rcases (hun.1 hh).2 with hl | hl
      · -- two labels
        right
        have hent : ∀ e ∈ m, ∃ m', e.2 = .map m' ∧ byLabels 1 m' = true := by
          intro e he
          have := hl e he
          cases hv : e.2 with
          | map m' => rw [hv] at this; exact ⟨m', rfl, this⟩
          | _ => rw [hv] at this; simp [GV.labelled] at this
        have hmm : ∀ e ∈ m, ∀ f ∈ e.2.entries, f.2.isMap = true ∧ f.2 ≠ .nilMap := by
          intro e he
          obtain ⟨m', h1, h2⟩ := hent e he
          have := okLabels_mem (hok.1 hh) he
          rw [h1] at this ⊢
          simp only [okLine] at this
          exact (byLabels_maps h2 (this.1 h2)).2
        rw [resH_deep k hl hmm] at hb
        have hlen : ∀ x ∈ bs.filter (fun x => decide (x.1 = k)), x.2.1.length = 2 := by
          rw [hb]
          intro x hx
          simp only [List.mem_map, List.mem_flatMap] at hx
          obtain ⟨y, ⟨e, -, f, -, rfl⟩, rfl⟩ := hx
          rfl
        have hne2 : ∃ x, x ∈ bs.filter (fun x => decide (x.1 = k)) := by
          rw [hb]
          obtain ⟨e, he⟩ := List.exists_mem_of_ne_nil m hne
          obtain ⟨m', h1, h2⟩ := hent e he
          have := okLabels_mem (hok.1 hh) he
          rw [h1] at this
          simp only [okLine] at this
          obtain ⟨f, hf⟩ := List.exists_mem_of_ne_nil m' (byLabels_maps h2 (this.1 h2)).1
          refine ⟨_, List.mem_map.2 ⟨_, List.mem_flatMap.2 ⟨e, he, List.mem_map.2 ⟨f, ?_, rfl⟩⟩, rfl⟩⟩
          rw [h1]; exact hf
        refine ⟨rfl, ?_, ?_, ?_, ?_⟩
        · rw [mem_types_filter]; rintro ⟨x, hx, h⟩; rw [hlen x hx] at h; cases h
        · rw [mem_types_filter]; rintro ⟨x, hx, h⟩; rw [hlen x hx] at h; cases h
        · rw [mem_types_filter]; obtain ⟨x, hx⟩ := hne2; exact ⟨x, hx, hlen x hx⟩
        · intro p
          have htw : twos bs k = m.flatMap fun e => e.2.entries.map fun f => (e.1, f.1, Out.ok f.2.canon) := by
            rw [twos_filter, List.filter_eq_self.2 (fun x hx => by simpa using hlen x hx), hb, List.map_map, List.map_flatMap]
            congr 1; funext e
            rw [List.map_map]; rfl
          have hof : ∀ l v, GoMap.get? m l = some v → twosOf bs k l = v.entries.map fun f => (f.1, Out.ok f.2.canon) := by
            intro l v hlv
            unfold twosOf
            rw [htw]
            clear htw hb hun hok hent hmm hlen hne2 hmaps hl hh hne
            have hnd := hex.2
            clear hex
            induction m with
            | nil => simp [GoMap.get?] at hlv
            | cons e m ih =>
              obtain ⟨l', v'⟩ := e
              simp only [List.map_cons, List.nodup_cons] at hnd
              simp only [GoMap.get?] at hlv
              simp only [List.flatMap_cons, List.filter_append, List.map_append]
              by_cases hll : l' = l
              · subst hll
                rw [if_pos rfl] at hlv
                cases hlv
                have h1 : (v.entries.map fun f => (l', f.1, Out.ok f.2.canon)).filter (fun x => decide (x.1 = l')) =
                    v.entries.map fun f => (l', f.1, Out.ok f.2.canon) := by
                  rw [List.filter_eq_self]
                  intro x hx
                  obtain ⟨f, -, rfl⟩ := List.mem_map.1 hx
                  simp
                have h2 : (m.flatMap fun e => e.2.entries.map fun f => (e.1, f.1, Out.ok f.2.canon)).filter
                    (fun x => decide (x.1 = l')) = [] := by
                  rw [List.filter_eq_nil_iff]
                  intro x hx
                  obtain ⟨e, he, hx⟩ := List.mem_flatMap.1 hx
                  obtain ⟨f, -, rfl⟩ := List.mem_map.1 hx
                  simp only [decide_eq_true_eq]
                  intro h0
                  exact hnd.1 (List.mem_map.2 ⟨e, he, h0⟩)
                rw [h1, h2]
                simp [List.map_map]
              · rw [if_neg hll] at hlv
                have h1 : (v'.entries.map fun f => (l', f.1, Out.ok f.2.canon)).filter (fun x => decide (x.1 = l)) = [] := by
                  rw [List.filter_eq_nil_iff]
                  intro x hx
                  obtain ⟨f, -, rfl⟩ := List.mem_map.1 hx
                  simpa using hll
                rw [h1, List.map_nil, List.nil_append]
                exact ih hlv hnd.2
          have hkeys : ∀ l, l ∈ ext.ord (p ++ [k]) (dedupB ((twos bs k).map Prod.fst)) ↔ l ∈ GoMap.keys m := by
            intro l
            rw [(ho _ _).mem_iff, mem_dedupB, htw]
            simp only [List.mem_map, List.mem_flatMap, GoMap.keys]
            constructor
            · rintro ⟨x, ⟨e, he, f, -, rfl⟩, rfl⟩; exact ⟨e, he, rfl⟩
            · rintro ⟨e, he, rfl⟩
              obtain ⟨m', h1, h2⟩ := hent e he
              have := okLabels_mem (hok.1 hh) he
              rw [h1] at this
              simp only [okLine] at this
              obtain ⟨f, hf⟩ := List.exists_mem_of_ne_nil m' (byLabels_maps h2 (this.1 h2)).1
              exact ⟨_, ⟨e, he, f, by rw [h1]; exact hf, rfl⟩, rfl⟩
          unfold twoVal
          rw [assign_canon (m := m) hkeys]
          · simp [Out.map, Out.bind, GV.canon]
          · intro l v hlv
            have hmem := GoMap.get?_mem hlv
            obtain ⟨m', h1, h2⟩ := hent _ hmem
            simp only at h1
            subst h1
            have hex' := exactM_mem hex.1 hmem
            simp only [exact] at hex'
            unfold twoVal2
            rw [hof l _ hlv]
            rw [assign_canon (m := m')]
            · simp [Out.map, Out.bind, GV.canon]
            · intro x
              rw [(ho _ _).mem_iff, mem_dedupB, List.map_map]
              rfl
            · intro x w hw
              exact lastO_map hex'.2 hw
      · -- one label
        left
        rw [resH_flat k [] hmaps hl] at hb
        have hlen : ∀ x ∈ bs.filter (fun x => decide (x.1 = k)), x.2.1.length = 1 := by
          rw [hb]
          intro x hx
          simp only [List.mem_map] at hx
          obtain ⟨y, ⟨e, -, rfl⟩, rfl⟩ := hx
          rfl
        have hne2 : ∃ x, x ∈ bs.filter (fun x => decide (x.1 = k)) := by
          rw [hb]
          obtain ⟨e, he⟩ := List.exists_mem_of_ne_nil m hne
          exact ⟨_, List.mem_map.2 ⟨_, List.mem_map.2 ⟨e, he, rfl⟩, rfl⟩⟩
        refine ⟨rfl, ?_, ?_, ?_, ?_⟩
        · rw [mem_types_filter]; rintro ⟨x, hx, h⟩; rw [hlen x hx] at h; cases h
        · rw [mem_types_filter]; obtain ⟨x, hx⟩ := hne2; exact ⟨x, hx, hlen x hx⟩
        · rw [mem_types_filter]; rintro ⟨x, hx, h⟩; rw [hlen x hx] at h; cases h
        · intro p
          have hon : ones bs k = m.map fun e => (e.1, Out.ok e.2.canon) := by
            rw [ones_filter, List.filter_eq_self.2 (fun x hx => by simpa using hlen x hx), hb, List.map_map, List.map_map]
            rfl
          unfold oneVal
          rw [hon, assign_canon (m := m)]
          · simp [Out.map, Out.bind, GV.canon]
          · intro x
            rw [(ho _ _).mem_iff, mem_dedupB, List.map_map]
            rfl
          · intro x w hw
            exact lastO_map hex.2 hw
    · left
      rw [if_neg hh] at hb
      simp only [List.map_cons, List.map_nil] at hb
      refine ⟨rfl, ?_, ?_, ?_, ?_⟩
      · rw [mem_types_filter, hb]; simp [okR]
      · rw [mem_types_filter, hb]; simp [okR]
      · rw [mem_types_filter, hb]; simp [okR]
      · unfold zeroVal
        rw [zeros_filter, hb]
        simp [okR, seqOut, Out.map, Out.bind, GV.canon]
  | nilMap => simp [okLine] at hok
  | _ =>
    left
    simp only [resV, List.map_nil] at hb
    refine ⟨rfl, ?_, ?_, ?_⟩ <;> (rw [mem_types_filter, hb]; simp)

mutual
theorem resV_len (k : Bytes) (ls : List Bytes) (hl : ls.length ≤ 2) : ∀ v, ∀ x ∈ resV k ls v, x.2.1.length ≤ 2
  | .map m => by
    simp only [resV]
    split
    · rename_i h
      refine resH_len k ls ?_ m
      simp only [byLabels, Bool.and_eq_true, decide_eq_true_eq] at h
      omega
    · simpa using hl
  | .nil => by simp [resV]
  | .nilList => by simp [resV]
  | .nilMap => by simp [resV]
  | .list _ => by simp [resV]
  | .str _ => by simp [resV]
  | .bool _ => by simp [resV]
  | .int _ => by simp [resV]
  | .flt _ => by simp [resV]
theorem resH_len (k : Bytes) (ls : List Bytes) (hl : ls.length < 2) : ∀ m, ∀ x ∈ resH k ls m, x.2.1.length ≤ 2
  | [] => by simp [resH]
  | (l, v) :: m => by
    simp only [resH, List.mem_append]
    rintro x (h | h)
    · exact resV_len k _ (by simp; omega) v x h
    · exact resH_len k ls hl m x h
end

theorem resOf_len (m : List (Bytes × GV)) : ∀ x ∈ resOf m, x.2.1.length ≤ 2 := by
  induction m with
  | nil => simp [resOf]
  | cons e m ih =>
    obtain ⟨k, v⟩ := e
    simp only [resOf, List.mem_append]
    rintro x (h | h)
    · exact resV_len k [] (by simp) v x h
    · exact ih x h

theorem get?_attrsOf {m : List (Bytes × GV)} (hn : (m.map Prod.fst).Nodup) (k : Bytes) :
    GoMap.get? (attrsOf m) k = (GoMap.get? m k).bind fun v => if v.isMap then none else some (exprOf false v) := by
  induction m with
  | nil => rfl
  | cons e m ih =>
    obtain ⟨k', v⟩ := e
    simp only [List.map_cons, List.nodup_cons] at hn
    simp only [attrsOf, GoMap.get?]
    by_cases hk : k' = k
    · subst hk
      rw [if_pos rfl]
      cases hv : v.isMap with
      | true =>
        simp only [if_true, ih hn.2, Option.bind_some, hv]
        rw [GoMap.get?_eq_none.2 hn.1]; rfl
      | false => simp [GoMap.get?, hv]
    · rw [if_neg hk]
      cases hv : v.isMap with
      | true => simpa using ih hn.2
      | false => simpa [GoMap.get?, hk] using ih hn.2

include ho in
/-- The body of a map decodes to the map, given the results of its blocks. -/
theorem body_back {m : List (Bytes × GV)} (hok : okBody m) (hex : exactM ext.nfc m) (hun : uniformM m)
    (hb : ∀ path i, blockResults ext path i (blocksOf m) = (resOf m).map okR) (path : List Bytes) :
    decodeBody ext path (bodyOf m) = .ok (canonM m) := by
  have hn := okBody_nodup hok
  have hfil : ∀ k v, GoMap.get? m k = some v →
      ((resOf m).map okR).filter (fun x => decide (x.1 = k)) = (resV k [] v).map okR := by
    intro k v hv
    have : ((resOf m).map okR).filter (fun x => decide (x.1 = k)) = ((resOf m).filter (fun x => decide (x.1 = k))).map okR := by
      rw [List.filter_map]; rfl
    rw [this, resOf_filter hn, hv]
  have hnone : ∀ k n, GoMap.get? m k = none → k ∉ typesOf ((resOf m).map okR) n := by
    intro k n hv
    have : ((resOf m).map okR).filter (fun x => decide (x.1 = k)) = ((resOf m).filter (fun x => decide (x.1 = k))).map okR := by
      rw [List.filter_map]; rfl
    rw [mem_types_filter, this, resOf_filter hn, hv]
    simp
  have hmem : ∀ k v, GoMap.get? m k = some v → _ := fun k v hv =>
    member_blocks ho (hfil k v hv) (okBody_mem hok (GoMap.get?_mem hv)) (exactM_mem hex (GoMap.get?_mem hv))
      (uniformM_mem hun (GoMap.get?_mem hv))
  obtain ⟨obj, hobj⟩ := assignAll_total (val := attrVal ext (attrsOf m)) (ext.ord path (GoMap.keys (attrsOf m))) [] (by
    intro k hk
    have := GoMap.get?_isSome.2 ((ho _ _).mem_iff.1 hk)
    obtain ⟨e, he⟩ := Option.isSome_iff_exists.1 this
    have he' := he
    rw [get?_attrsOf hn] at he'
    obtain ⟨v, h1, h2⟩ := Option.bind_eq_some_iff.1 he'
    split at h2
    · cases h2
    · cases h2
      refine ⟨v.canon, ?_⟩
      unfold attrVal
      rw [he]
      exact native_expr ext false v (exactM_mem hex (GoMap.get?_mem h1)) (by simp))
  obtain ⟨a1, a2, a3⟩ := assignAll_ok _ hobj
  have hkt : ∀ p n k, k ∈ ext.ord p (typesOf ((resOf m).map okR) n) → k ∈ typesOf ((resOf m).map okR) n ∧
      ∃ v, GoMap.get? m k = some v := by
    intro p n k hk
    have hk := (ho _ _).mem_iff.1 hk
    refine ⟨hk, ?_⟩
    cases hv : GoMap.get? m k with
    | none => exact absurd hk (hnone k n hv)
    | some v => exact ⟨v, rfl⟩
  obtain ⟨res, hres⟩ := decodeBlocks_total (ext := ext) (path := path) (bs := (resOf m).map okR) obj
    (by
      intro x hx
      obtain ⟨y, hy, rfl⟩ := List.mem_map.1 hx
      exact resOf_len m y hy)
    (by
      intro p k hk
      obtain ⟨hk, v, hv⟩ := hkt p 0 k hk
      rcases hmem k v hv with h | h | h | h
      · exact absurd hk h.2.1
      · exact ⟨_, h.2.2.2.2⟩
      · exact absurd hk h.2.1
      · exact absurd hk h.2.1)
    (by
      intro p q k hk
      obtain ⟨hk, v, hv⟩ := hkt p 1 k hk
      rcases hmem k v hv with h | h | h | h
      · exact absurd hk h.2.2.1
      · exact absurd hk h.2.2.1
      · exact ⟨_, h.2.2.2.2 q⟩
      · exact absurd hk h.2.2.1)
    (by
      intro p q k hk
      obtain ⟨hk, v, hv⟩ := hkt p 2 k hk
      rcases hmem k v hv with h | h | h | h
      · exact absurd hk h.2.2.2
      · exact absurd hk h.2.2.2.1
      · exact absurd hk h.2.2.2.1
      · exact ⟨_, h.2.2.2.2 q⟩)
  have hdec : decodeBody ext path (bodyOf m) = .ok res := by
    unfold bodyOf
    simp only [decodeBody]
    rw [hobj]
    simp only [Out.bind]
    rw [hb, hres]
  rw [hdec]
  congr 1
  refine (decodeBody_sorted hdec).ext (sorted_canonM m) fun k => ?_
  rw [get?_canonM]
  obtain ⟨-, hk⟩ := decodeBlocks_ok ho hres
  obtain ⟨k2, k1, k0, ka⟩ := hk k
  cases hv : GoMap.get? m k with
  | none =>
    rw [ka (hnone k 2 hv) (hnone k 1 hv) (hnone k 0 hv), a1]
    · simp [GoMap.get?]
    · rw [(ho _ _).mem_iff, ← GoMap.get?_isSome, get?_attrsOf hn, hv]; simp
  | some v =>
    rcases hmem k v hv with h | h | h | h
    · rw [ka h.2.2.2 h.2.2.1 h.2.1]
      have hat : GoMap.get? (attrsOf m) k = some (exprOf false v) := by
        rw [get?_attrsOf hn, hv]; simp [h.1]
      obtain ⟨w, h1, h2⟩ := a2 k (by rw [(ho _ _).mem_iff, ← GoMap.get?_isSome, hat]; rfl)
      unfold attrVal at h1
      rw [hat] at h1
      simp only at h1
      rw [native_expr ext false v (exactM_mem hex (GoMap.get?_mem hv)) (by simp)] at h1
      cases h1
      rw [h2]; rfl
    · obtain ⟨w, h1, h2⟩ := k0 h.2.2.2.1 h.2.2.1 h.2.1
      rw [h.2.2.2.2] at h1; cases h1
      rw [h2]; rfl
    · obtain ⟨w, h1, h2⟩ := k1 h.2.2.2.1 h.2.2.1
      rw [h.2.2.2.2] at h1; cases h1
      rw [h2]; rfl
    · obtain ⟨w, h1, h2⟩ := k2 h.2.2.2.1
      rw [h.2.2.2.2] at h1; cases h1
      rw [h2]; rfl

include ho
mutual
theorem blocksOf_res : ∀ m : List (Bytes × GV), okBody m → exactM ext.nfc m → uniformM m →
    ∀ path i, blockResults ext path i (blocksOf m) = (resOf m).map okR
  | [], _, _, _, _, _ => by simp [blocksOf, blockResults, resOf]
  | (k, v) :: m, hok, hex, hun, path, i => by
    simp only [okBody] at hok
    simp only [exactM] at hex
    simp only [uniformM] at hun
    simp only [blocksOf, resOf, blockResults_append, List.map_append]
    rw [blocksV_res k [] v hok.2.1 hex.1 hun.1, blocksOf_res m hok.2.2 hex.2 hun.2]
theorem blocksV_res (k : Bytes) (ls : List Bytes) : ∀ v : GV, okLine ls.length v → exact ext.nfc v → uniform ls.length v →
    ∀ path i, blockResults ext path i (blocksV k ls v) = (resV k ls v).map okR
  | .map m, hok, hex, hun, path, i => by
    simp only [okLine] at hok
    simp only [exact] at hex
    simp only [uniform] at hun
    simp only [blocksV, resV]
    split
    · rename_i h
      exact blocksH_res k ls m (hok.1 h) hex.1 (hun.1 h).1 path i
    · rename_i h
      have h' : byLabels ls.length m = false := by simpa using h
      have := body_back ho (hok.2 h') hex.1 (hun.2 h') (blocksOf_res m (hok.2 h') hex.1 (hun.2 h'))
      unfold bodyOf at this
      simp only [blockResults, this, List.map_cons, List.map_nil, Out.map, Out.bind, okR]
  | .nil, _, _, _, _, _ => by simp [blocksV, blockResults, resV]
  | .nilList, _, _, _, _, _ => by simp [blocksV, blockResults, resV]
  | .nilMap, _, _, _, _, _ => by simp [blocksV, blockResults, resV]
  | .list _, _, _, _, _, _ => by simp [blocksV, blockResults, resV]
  | .str _, _, _, _, _, _ => by simp [blocksV, blockResults, resV]
  | .bool _, _, _, _, _, _ => by simp [blocksV, blockResults, resV]
  | .int _, _, _, _, _, _ => by simp [blocksV, blockResults, resV]
  | .flt _, _, _, _, _, _ => by simp [blocksV, blockResults, resV]
theorem blocksH_res (k : Bytes) (ls : List Bytes) : ∀ m : List (Bytes × GV), okLabels ls.length m → exactM ext.nfc m →
    uniformL ls.length m → ∀ path i, blockResults ext path i (blocksH k ls m) = (resH k ls m).map okR
  | [], _, _, _, _, _ => by simp [blocksH, blockResults, resH]
  | (l, v) :: m, hok, hex, hun, path, i => by
    simp only [okLabels] at hok
    simp only [exactM] at hex
    simp only [uniformL] at hun
    simp only [blocksH, resH, blockResults_append, List.map_append]
    rw [blocksV_res k (ls ++ [l]) v (by simpa using hok.2.1) hex.1 (by simpa using hun.1),
      blocksH_res k ls m hok.2.2 hex.2 hun.2]
end

theorem decodeBody_back {m : List (Bytes × GV)} (hok : okBody m) (hex : exactM ext.nfc m) (hun : uniformM m)
    (path : List Bytes) : decodeBody ext path (bodyOf m) = .ok (canonM m) :=
  body_back ho hok hex hun (blocksOf_res ho m hok hex hun) path

end

end Verif.Hcl
