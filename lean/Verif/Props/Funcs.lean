import Verif.Spec.Funcs
import Verif.Lemmas.Cty
import Verif.Lemmas.HclDecode
set_option linter.unusedSimpArgs false
/-! Functions on collections, strings and marks (C20, C21, C22, C25). -/
namespace Verif.Funcs
open Hcl (rd IsFloat rd_exact SortedK)
open Det (insertK ltB get?_insertK ltB_lin ltB_iff)

/-! ## C20 -/

theorem allTrueLoop_sound {l l' : List (K Bool)} (h : List.Forall₂ Completes l l') {v : Bool}
    (hv : allTrueLoop true l = .val v) : (v = true ↔ ∀ x ∈ l', x = .val true) := by
  induction h with
  | nil => simp only [allTrueLoop, K.val.injEq] at hv; subst hv; simp
  | @cons x y l l' hxy _ ih =>
    cases x with
    | unk => simp [allTrueLoop] at hv
    | null =>
      simp only [allTrueLoop, K.val.injEq] at hv; subst hv
      rcases hxy.2 with h | h <;> simp_all
    | val c =>
      rcases hxy.2 with h | h
      · cases h
      · subst h
        cases c
        · simp only [allTrueLoop, Bool.and_false, if_true, K.val.injEq] at hv; subst hv; simp
        · simp only [allTrueLoop, Bool.and_true, Bool.true_eq_false, if_false] at hv
          rw [ih hv]; simp

/-- C20: a known answer of `alltrue` is right however the unknown elements turn out. -/
theorem C20_all {l l' : List (K Bool)} {v : Bool} (hv : allTrue (.val l) = .ok (.val v))
    (h : List.Forall₂ Completes l l') : (v = true ↔ ∀ x ∈ l', x = .val true) :=
  allTrueLoop_sound h (by simpa [allTrue, call] using hv)

theorem allTrueLoop_unk (l : List (K Bool)) :
    (∃ v, allTrueLoop true l = .val v) ∨
    (allTrueLoop true l = .unk ∧ ∃ p q, l = p ++ .unk :: q ∧ ∀ x ∈ p, x = .val true) := by
  induction l with
  | nil => exact .inl ⟨_, rfl⟩
  | cons x l ih =>
    cases x with
    | unk => exact .inr ⟨rfl, [], l, rfl, by simp⟩
    | null => exact .inl ⟨_, rfl⟩
    | val c =>
      cases c
      · exact .inl ⟨_, rfl⟩
      · rcases ih with ⟨v, hv⟩ | ⟨h, p, q, e, hp⟩
        · exact .inl ⟨v, by simpa [allTrueLoop] using hv⟩
        · exact .inr ⟨by simpa [allTrueLoop] using h, .val true :: p, q, by simp [e], by simpa using hp⟩

/-- C20: `alltrue` answers unless an unknown element comes before every false and null one. -/
theorem C20_all_known (l : List (K Bool)) :
    (∃ v, allTrue (.val l) = .ok (.val v)) ∨
    (allTrue (.val l) = .ok .unk ∧ ∃ p q, l = p ++ .unk :: q ∧ ∀ x ∈ p, x = .val true) := by
  rcases allTrueLoop_unk l with ⟨v, h⟩ | ⟨h, r⟩
  · exact .inl ⟨v, by simp [allTrue, call, h]⟩
  · exact .inr ⟨by simp [allTrue, call, h], r⟩

theorem anyTrueLoop_eq (l : List (K Bool)) (u : Bool) :
    anyTrueLoop false u l =
      if .val true ∈ l then .val true else if u = true ∨ .unk ∈ l then .unk else .val false := by
  induction l generalizing u with
  | nil => cases u <;> simp [anyTrueLoop]
  | cons x l ih =>
    cases x with
    | unk => simp [anyTrueLoop, ih]
    | null => simp [anyTrueLoop, ih]
    | val c => cases c <;> simp [anyTrueLoop, ih]

/-- C20: a known answer of `anytrue` is right however the unknown elements turn out. -/
theorem C20_any {l l' : List (K Bool)} {v : Bool} (hv : anyTrue (.val l) = .ok (.val v))
    (h : List.Forall₂ Completes l l') : (v = true ↔ ∃ x ∈ l', x = .val true) := by
  simp only [anyTrue, call, anyTrueLoop_eq, Bool.false_eq_true, false_or, Except.ok.injEq] at hv
  have key : ∀ {l l' : List (K Bool)}, List.Forall₂ Completes l l' →
      (.val true ∈ l → .val true ∈ l') ∧ (.unk ∉ l → l' = l) := by
    intro l l' h
    induction h with
    | nil => simp
    | @cons x y l l' hxy _ ih =>
      obtain ⟨_, h2⟩ := hxy
      rcases h2 with rfl | rfl
      · exact ⟨fun hm => List.mem_cons_of_mem _ (ih.1 (by simpa using hm)), by simp⟩
      · refine ⟨fun hm => ?_, fun hu => ?_⟩
        · rcases List.mem_cons.1 hm with e | e
          · exact e ▸ List.mem_cons_self
          · exact List.mem_cons_of_mem _ (ih.1 e)
        · rw [ih.2 (fun hc => hu (List.mem_cons_of_mem _ hc))]
  obtain ⟨k1, k2⟩ := key h
  split at hv
  · rename_i hm
    cases hv
    exact ⟨fun _ => ⟨_, k1 hm, rfl⟩, fun _ => rfl⟩
  · rename_i hm
    split at hv
    · cases hv
    · rename_i hu
      cases hv
      rw [k2 hu]
      exact ⟨fun h => (by cases h), fun ⟨x, hx, e⟩ => absurd (e ▸ hx) hm⟩

/-- C20: `anytrue` is unknown only if the unknown elements decide. -/
theorem C20_any_known (l : List (K Bool)) :
    (∃ v, anyTrue (.val l) = .ok (.val v)) ∨
    (anyTrue (.val l) = .ok .unk ∧ .unk ∈ l ∧ .val true ∉ l) := by
  simp only [anyTrue, call, anyTrueLoop_eq, Bool.false_eq_true, false_or]
  by_cases h : (.val true : K Bool) ∈ l
  · exact .inl ⟨true, by simp [h]⟩
  · by_cases h' : (.unk : K Bool) ∈ l
    · exact .inr ⟨by simp [h, h'], h', h⟩
    · exact .inl ⟨false, by simp [h, h']⟩

example : allTrue (.val [.val true, .val false, .unk]) = .ok (.val false) ∧
    anyTrue (.val [.unk, .null, .val true]) = .ok (.val true) ∧
    allTrue (.val [.unk, .val false]) = .ok .unk ∧ anyTrue (.val [.val false, .null]) = .ok (.val false) := by decide
example : List.Forall₂ Completes [.val true, .val false, (.unk : K Bool)] [.val true, .val false, .null] := by
  simp [Completes]

/-! ## C21 -/

theorem hasPrefix_iff (s p : Bytes) : hasPrefix s p = true ↔ p <+: s := by
  simp only [hasPrefix, Bool.and_eq_true, decide_eq_true_eq, beq_iff_eq]
  rw [List.prefix_iff_eq_take]
  constructor
  · exact fun h => h.2.symm
  · intro h
    refine ⟨?_, h.symm⟩
    have := congrArg List.length h
    simp only [List.length_take] at this
    omega

/-- C21: a known answer of `startswith` is right for every string that the argument may turn out to be. -/
theorem C21_sound {a : StrArg} {pre : Bytes} {v : Bool} (h : startsWith a (.val pre) = .ok (.val v))
    {x : Bytes} (hx : Possible a x) : (v = true ↔ ∃ r, x = pre ++ r) := by
  have pf : (∃ r, x = pre ++ r) ↔ pre <+: x := ⟨fun ⟨r, e⟩ => ⟨r, e.symm⟩, fun ⟨r, e⟩ => ⟨r, e.symm⟩⟩
  rw [pf]
  cases a with
  | null => exact hx.elim
  | known s =>
    cases hx
    simp only [startsWith, call, startsWithImpl] at h
    split at h <;> rename_i hp <;> cases h
    · simpa using (hasPrefix_iff _ _).1 hp
    · simpa [hasPrefix_iff] using hp
  | unk p =>
    obtain ⟨r, rfl⟩ := hx
    simp only [startsWith, call, startsWithImpl] at h
    split at h
    · rename_i he; cases h; subst he; simp
    · split at h
      · split at h
        · rename_i hp; cases h
          exact ⟨fun _ => ((hasPrefix_iff _ _).1 hp).trans (List.prefix_append _ _), fun _ => rfl⟩
        · rename_i hp
          split at h
          · rename_i hl; cases h
            refine ⟨fun h => (by cases h), fun hpx => absurd ?_ hp⟩
            exact (hasPrefix_iff _ _).2 (List.prefix_of_prefix_length_le hpx (List.prefix_append _ _) hl)
          · cases h
      · cases h

/-- C21: it answers unless the known part of the string is shorter than the prefix asked for. -/
theorem C21_unknown {a : StrArg} {pre : Bytes} :
    startsWith a (.val pre) = .ok .unk ↔ ∃ p, a = .unk p ∧ p.length < pre.length := by
  cases a with
  | null => simp [startsWith]
  | known s => simp only [startsWith, call, startsWithImpl]; split <;> simp
  | unk p =>
    simp only [startsWith, call, startsWithImpl, StrArg.unk.injEq, exists_eq_left']
    split
    · rename_i h; subst h; simp
    · rename_i h
      split
      · split
        · rename_i hp
          have := ((hasPrefix_iff _ _).1 hp).length_le
          simp; omega
        · split <;> rename_i hl <;> simp <;> omega
      · rename_i hp
        have : p = [] := by simpa using hp
        subst this
        simpa using List.length_pos_iff.2 h

/-- C21: the answer of `endswith` on known strings. -/
theorem C21_endswith {s p : Bytes} : ∃ v, endsWith (.val s) (.val p) = .ok (.val v) ∧ (v = true ↔ ∃ r, s = r ++ p) := by
  have key : hasSuffix s p = true ↔ ∃ r, s = r ++ p := by
    simp only [hasSuffix, Bool.and_eq_true, decide_eq_true_eq, beq_iff_eq]
    constructor
    · rintro ⟨_, h⟩
      exact ⟨s.take (s.length - p.length), by conv_lhs => rw [← List.take_append_drop (s.length - p.length) s, h]⟩
    · rintro ⟨r, rfl⟩
      simp
  refine ⟨hasSuffix s p, ?_, key⟩
  simp only [endsWith]
  split <;> rename_i h <;> simp_all

/-- C21: the answer of `strcontains` on known strings. -/
theorem C21_strcontains {s p : Bytes} :
    ∃ v, strContains (.val s) (.val p) = .ok (.val v) ∧ (v = true ↔ ∃ q r, s = q ++ p ++ r) := by
  have key : containsB s p = true ↔ p <:+: s := by
    induction s with
    | nil => simp [containsB]
    | cons c s ih =>
      simp only [containsB, Bool.or_eq_true, ih, hasPrefix_iff, List.infix_cons_iff]
  refine ⟨containsB s p, ?_, ?_⟩
  · simp only [strContains]
    split <;> rename_i h <;> simp_all
  · rw [key]
    exact ⟨fun ⟨q, r, e⟩ => ⟨q, r, e.symm⟩, fun ⟨q, r, e⟩ => ⟨q, r, e.symm⟩⟩

/-- C21: an unknown string gives `endswith` and `strcontains` no answer. -/
theorem C21_others_unknown (p : Bytes) : endsWith .unk (.val p) = .ok .unk ∧ strContains .unk (.val p) = .ok .unk :=
  ⟨rfl, rfl⟩

example : startsWith (.unk (b "https://")) (.val (b "http")) = .ok (.val true) ∧
    startsWith (.unk (b "https://")) (.val (b "ftp")) = .ok (.val false) ∧
    startsWith (.unk (b "ht")) (.val (b "http")) = .ok .unk := by decide
example : Possible (.unk (b "ht")) (b "http://x") := ⟨b "tp://x", by decide⟩
/-- It gives no answer for a longer prefix even when every possible string differs. -/
example : startsWith (.unk (b "ab")) (.val (b "xyz")) = .ok .unk := by decide

/-! ## C22 -/

section
variable {α β : Type}

theorem indexLoop_iff (eq : α → α → Res Bool) (x : α) (l : List α) (i j : Nat) :
    indexLoop eq x i l = .ok (.val j) ↔
      ∃ p v q, l = p ++ v :: q ∧ j = i + p.length ∧ eq v x = .ok (.val true) ∧ ∀ w ∈ p, eq w x = .ok (.val false) := by
  induction l generalizing i with
  | nil => simp [indexLoop]
  | cons v l ih =>
    constructor
    · intro h
      simp only [indexLoop] at h
      split at h
      · cases h
      · cases h
      · cases h
      · rename_i he; cases h; exact ⟨[], v, l, rfl, rfl, he, by simp⟩
      · rename_i he
        obtain ⟨p, w, q, rfl, rfl, h3, h4⟩ := (ih _).1 h
        exact ⟨v :: p, w, q, rfl, by simp; omega, h3, by simpa [he] using h4⟩
    · rintro ⟨p, w, q, h1, h2, h3, h4⟩
      cases p with
      | nil =>
        simp only [List.nil_append, List.cons.injEq] at h1
        obtain ⟨rfl, rfl⟩ := h1
        simp [indexLoop, h3, h2]
      | cons y p =>
        simp only [List.cons_append, List.cons.injEq] at h1
        obtain ⟨rfl, rfl⟩ := h1
        simp only [indexLoop, h4 v (by simp)]
        exact (ih _).2 ⟨p, w, q, rfl, by simp at h2; omega, h3, fun z hz => h4 z (by simp [hz])⟩

/-- C22: `index` gives the position of the first element that is equal, all before being different. -/
theorem C22_index (eq : α → α → Res Bool) (l : List α) (x : α) (j : Nat) :
    index eq true (.val l) (.val x) = .ok (.val j) ↔
      ∃ p v q, l = p ++ v :: q ∧ j = p.length ∧ eq v x = .ok (.val true) ∧ ∀ w ∈ p, eq w x = .ok (.val false) := by
  simp only [index, Bool.true_eq_false, if_false]
  split
  · rename_i h
    have : l = [] := List.length_eq_zero_iff.1 h
    subst this; simp
  · rw [indexLoop_iff]; simp

/-- C22: `index` fails exactly when no element is equal. -/
theorem C22_index_none [DecidableEq α] {eq : α → α → Res Bool} (he : Decides eq) (l : List α) (x : α) :
    index eq true (.val l) (.val x) = .error () ↔ x ∉ l := by
  have key : ∀ (l : List α) (i : Nat), indexLoop eq x i l = .error () ↔ x ∉ l := by
    intro l
    induction l with
    | nil => simp [indexLoop]
    | cons v l ih =>
      intro i
      simp only [indexLoop, he v x]
      by_cases h : v = x
      · simp [h]
      · simp [h, ih, Ne.symm h]
  simp only [index, Bool.true_eq_false, if_false]
  split
  · rename_i h
    have : l = [] := List.length_eq_zero_iff.1 h
    subst this; simp
  · exact key l 0

theorem searchLoop_eq [DecidableEq β] {eq : β → β → Res Bool} (he : Decides eq) (k : β) (l : List β) :
    searchLoop eq k l = .ok (.val (decide (k ∈ l))) := by
  induction l with
  | nil => simp [searchLoop]
  | cons s l ih =>
    simp only [searchLoop, he k s]
    by_cases h : k = s
    · simp [h]
    · simp [h, ih]

theorem matchLoop_eq [DecidableEq β] {eq : β → β → Res Bool} (he : Decides eq) (search : List β)
    (vs : List α) (ks : List β) (out : List α) :
    matchLoop eq search out vs ks =
      .ok (.val (out ++ ((vs.zip ks).filter (fun e => decide (e.2 ∈ search))).map Prod.fst)) := by
  induction vs generalizing ks out with
  | nil => simp [matchLoop]
  | cons v vs ih =>
    cases ks with
    | nil => simp [matchLoop]
    | cons k ks =>
      simp only [matchLoop, searchLoop_eq he]
      by_cases h : k ∈ search
      · simp [h, ih]
      · simp [h, ih]

/-- C22, the part that holds (missing: unknown members of the search set, see `C22_violated_matchkeys`):
`matchkeys` keeps the values whose key is in the search set, in order, when everything is known. -/
theorem C22_matchkeys_partial [DecidableEq β] {eq : β → β → Res Bool} (he : Decides eq) {wk : α → Bool} {wk' : β → Bool}
    {vs : List α} {ks search : List β} (hl : vs.length = ks.length)
    (h1 : ∀ v ∈ vs, wk v = true) (h2 : ∀ k ∈ ks, wk' k = true) :
    matchkeys eq wk wk' (.val vs) (.val ks) (.val search) =
      .ok (.val (((vs.zip ks).filter (fun e => decide (e.2 ∈ search))).map Prod.fst)) := by
  have a1 : vs.all wk = true := List.all_eq_true.2 h1
  have a2 : ks.all wk' = true := List.all_eq_true.2 h2
  simp only [matchkeys, hl, ne_eq, not_true_eq_false, if_false, a1, a2, Bool.not_true, Bool.or_self,
    Bool.false_eq_true]
  split
  · rename_i h
    have : search = [] := List.length_eq_zero_iff.1 h
    subst this; simp
  · rw [matchLoop_eq he]; simp

/-- C22: it fails on lists of different lengths. -/
theorem C22_matchkeys_length {eq : β → β → Res Bool} {wk : α → Bool} {wk' : β → Bool}
    {vs : List α} {ks search : List β} (hl : vs.length ≠ ks.length) :
    matchkeys eq wk wk' (.val vs) (.val ks) (.val search) = .error () := by
  simp [matchkeys, hl]

/-- C22: the element of a list with one element, null for the empty list, else an error. -/
theorem C22_one (l : List (K α)) (r : K α) :
    one (.val l) = .ok r ↔ l = [r] ∨ (l = [] ∧ r = .null) := by
  rcases l with _ | ⟨x, _ | ⟨y, l⟩⟩
  · simp [one, call, eq_comm]
  · simp [one, call]
  · simp [one, call]

/-- C22: `coalesce` gives the first value that is neither null nor an empty string. -/
theorem C22_coalesce (empty : α → Bool) (l : List (K α)) (a : α) :
    coalesce empty l = .ok (.val a) ↔
      ∃ p q, l = p ++ .val a :: q ∧ empty a = false ∧ ∀ x ∈ p, Skipped empty x := by
  induction l with
  | nil => simp [coalesce]
  | cons x l ih =>
    have step : Skipped empty x → (x = .val a → empty a = true) →
        ((∃ p q, x :: l = p ++ .val a :: q ∧ empty a = false ∧ ∀ y ∈ p, Skipped empty y) ↔
         ∃ p q, l = p ++ .val a :: q ∧ empty a = false ∧ ∀ y ∈ p, Skipped empty y) := by
      intro hs hne
      constructor
      · rintro ⟨p, q, h1, h2, h3⟩
        cases p with
        | nil =>
          simp only [List.nil_append, List.cons.injEq] at h1
          rw [hne h1.1] at h2; cases h2
        | cons y p =>
          simp only [List.cons_append, List.cons.injEq] at h1
          exact ⟨p, q, h1.2, h2, fun z hz => h3 z (by simp [hz])⟩
      · rintro ⟨p, q, rfl, h2, h3⟩
        exact ⟨x :: p, q, rfl, h2, by simpa [hs] using h3⟩
    cases x with
    | unk =>
      simp only [coalesce]
      constructor
      · intro h; cases h
      · rintro ⟨p, q, h1, h2, h3⟩
        cases p with
        | nil => simp at h1
        | cons y p =>
          simp only [List.cons_append, List.cons.injEq] at h1
          have := h3 y (by simp)
          rw [← h1.1] at this
          simp [Skipped] at this
    | null =>
      simp only [coalesce]
      rw [ih, step (.inl rfl) (by simp)]
    | val c =>
      simp only [coalesce]
      by_cases hc : empty c = true
      · rw [if_pos hc, ih, step (.inr ⟨c, rfl, hc⟩) (by rintro ⟨⟩; exact hc)]
      · rw [if_neg hc]
        constructor
        · intro h
          simp only [Except.ok.injEq, K.val.injEq] at h
          subst h
          exact ⟨[], l, rfl, by simpa using hc, by simp⟩
        · rintro ⟨p, q, h1, h2, h3⟩
          cases p with
          | nil => simp only [List.nil_append, List.cons.injEq, K.val.injEq] at h1; simp [h1.1]
          | cons y p =>
            simp only [List.cons_append, List.cons.injEq] at h1
            have := h3 y (by simp)
            rw [← h1.1] at this
            simp only [Skipped, reduceCtorEq, K.val.injEq, false_or] at this
            obtain ⟨_, rfl, h⟩ := this
            exact absurd h hc

/-- C22: it fails exactly when there is no such value. -/
theorem C22_coalesce_none (empty : α → Bool) (l : List (K α)) :
    coalesce empty l = .error () ↔ ∀ x ∈ l, Skipped empty x := by
  induction l with
  | nil => simp [coalesce]
  | cons x l ih =>
    cases x with
    | unk => simp [coalesce, Skipped]
    | null => simp [coalesce, ih, Skipped]
    | val c =>
      by_cases hc : empty c = true
      · simp [coalesce, hc, ih, Skipped]
      · simp [coalesce, hc, Skipped]

end

/-- `stdlib.Equal` on values that may be unknown. -/
def exEq (x y : K Nat) : Res Bool :=
  match x, y with
  | .unk, _ => .ok .unk
  | _, .unk => .ok .unk
  | x, y => .ok (.val (decide (x = y)))

/-- C22 is violated: an unknown member of the search set makes `matchkeys` answer with a known empty list, and
the answer is wrong when the member turns out to be the key — and wrong even for a key found earlier. -/
theorem C22_violated_matchkeys :
    let wk : K Nat → Bool := fun x => decide (x ≠ .unk)
    matchkeys exEq wk wk (.val [.val 10, .val 20]) (.val [.val 1, .val 2]) (.val [.val 1, .unk]) = .ok (.val []) ∧
    ∀ n : Nat, ∃ l, .val 10 ∈ l ∧
      matchkeys exEq wk wk (.val [.val 10, .val 20]) (.val [.val 1, .val 2]) (.val [.val 1, .val n]) = .ok (.val l) := by
  refine ⟨by decide, fun n => ?_⟩
  by_cases h : n = 2
  · subst h; exact ⟨[.val 10, .val 20], by simp, by decide⟩
  · exact ⟨[.val 10], by simp, by simp [matchkeys, matchLoop, searchLoop, exEq, Ne.symm h]⟩

example : Decides (fun x y : Nat => .ok (.val (decide (x = y)))) := fun _ _ => rfl
example : index (fun x y : Nat => .ok (.val (decide (x = y)))) true (.val [5, 7, 7]) (.val 7) = .ok (.val 1) := by decide
example : matchkeys (fun x y : Nat => .ok (.val (decide (x = y)))) (fun _ : Nat => true) (fun _ => true)
    (.val [1, 2, 3]) (.val [7, 8, 7]) (.val [9, 7]) = .ok (.val [1, 3]) := by decide
example : coalesce (fun s : Bytes => s.isEmpty) [.null, .val [], .val (b "x"), .unk] = .ok (.val (b "x")) := by decide

/-! ### sum -/

/-- C22, the part that holds (missing: larger sums and fractions, see `C22_violated_sum`): `sum` is exact on integers as long as the sum of their sizes fits in the precision of the first, whatever the precision of the others. -/
theorem C22_sum_partial {p : Nat} {l : List BF} {ns : List Int} (hne : l ≠ [])
    (hl : List.Forall₂ (fun (x : BF) (n : Int) => x.val = n) l ns) (hp : ∀ x ∈ l.head?, p ≤ x.prec)
    (hb : (ns.map Int.natAbs).sum < 2 ^ p) :
    ∃ r, sum true (.val (l.map fun x => .val (some x))) = .ok (.val r) ∧ r.val = (ns.sum : Int) := by
  have key : ∀ {l : List BF} {ns : List Int},
      List.Forall₂ (fun (x : BF) (n : Int) => x.val = n) l ns → ∀ (s : BF) (k : Int),
      s.val = k → p ≤ s.prec → k.natAbs + (ns.map Int.natAbs).sum < 2 ^ p →
      ∃ r, sumLoop s (l.map fun x => .val (some x)) = .ok (.val r) ∧ r.val = ((k + ns.sum : Int) : Rat) := by
    intro l ns h
    induction h with
    | nil => intro s k hs _ _; exact ⟨s, rfl, by simpa using hs⟩
    | @cons x n l ns hx _ ih =>
      intro s k hs hp hb
      simp only [List.map_cons, List.sum_cons] at hb
      have hf : IsFloat (max s.prec x.prec) (((k + n : Int)) : Rat) := by
        refine ⟨k + n, 0, by simp, ?_⟩
        have h1 : (k + n).natAbs < 2 ^ p := by omega
        have h2 : (2 : Nat) ^ p ≤ 2 ^ max s.prec x.prec :=
          Nat.pow_le_pow_right (by omega) (le_trans hp (le_max_left _ _))
        have h3 : ((k + n).natAbs : Int) < ((2 ^ max s.prec x.prec : Nat) : Int) := by
          exact_mod_cast lt_of_lt_of_le h1 h2
        rw [Int.abs_eq_natAbs]
        simpa using h3
      have ha : (s.add x).val = ((k + n : Int) : Rat) := by
        simp only [BF.add, hs, hx]
        rw [← Int.cast_add]
        exact rd_exact hf
      obtain ⟨r, h1, h2⟩ := ih (s.add x) (k + n) ha (le_trans hp (le_max_left _ _)) (by omega)
      exact ⟨r, by simpa [sumLoop] using h1, by rw [h2, List.sum_cons]; congr 1; ring⟩
  cases hl with
  | nil => exact absurd rfl hne
  | @cons x n l ns hx h =>
    simp only [List.map_cons, List.sum_cons] at hb
    obtain ⟨r, h1, h2⟩ := key h x n hx (hp x (by simp)) hb
    refine ⟨r, ?_, by rw [h2, List.sum_cons]⟩
    have hu : ((l.map fun x => (K.val (some x) : K (Option BF))).any K.isUnk) = false := by
      simp [List.any_eq_false, K.isUnk]
    simp only [sum, call, List.map_cons, List.length_cons, List.any_cons, hu, K.isUnk, Bool.or_self,
      Bool.true_eq_false, Bool.false_eq_true, if_false, Nat.add_one_ne_zero]
    exact h1

/-- C22 is violated beyond that: three integers of 63 bits, at the 64 bits that `cty.NumberIntVal` gives them, have
a sum that is rounded. -/
theorem C22_violated_sum :
    ∃ r, sum true (.val (List.replicate 3 (.val (some ⟨2 ^ 63 - 1, 64⟩)))) = .ok (.val r) ∧
      r.val ≠ 3 * (2 ^ 63 - 1) := by
  refine ⟨_, rfl, by decide +kernel⟩

/-- C22: `sum` refuses empty lists, nulls and what is not a number. -/
theorem C22_sum_error {l : List (K (Option BF))} (hu : .unk ∉ l) :
    sum true (.val l) = .error () ↔ l = [] ∨ .null ∈ l ∨ .val none ∈ l := by
  have key : ∀ (l : List (K (Option BF))) (s : BF), .unk ∉ l →
      (sumLoop s l = .error () ↔ .null ∈ l ∨ .val none ∈ l) := by
    intro l
    induction l with
    | nil => simp [sumLoop]
    | cons x l ih =>
      intro s hu
      have hu' : .unk ∉ l := fun h => hu (List.mem_cons_of_mem _ h)
      rcases x with _ | _ | (_ | x)
      · exact absurd List.mem_cons_self hu
      · simp [sumLoop]
      · simp [sumLoop]
      · simp [sumLoop, ih _ hu']
  have ha : l.any K.isUnk = false := by
    rw [List.any_eq_false]
    intro x hx
    cases x with
    | unk => exact absurd hx hu
    | null => simp [K.isUnk]
    | val a => simp [K.isUnk]
  simp only [sum, call, ha, Bool.true_eq_false, Bool.false_eq_true, if_false]
  rcases l with _ | ⟨x, l⟩
  · simp
  · have hu' : .unk ∉ l := fun h => hu (List.mem_cons_of_mem _ h)
    rcases x with _ | _ | (_ | x)
    · exact absurd List.mem_cons_self hu
    · simp only [List.length_cons, Nat.add_one_ne_zero, if_false]; simp
    · simp only [List.length_cons, Nat.add_one_ne_zero, if_false]; simp
    · simp only [List.length_cons, Nat.add_one_ne_zero, if_false]; simp [key l x hu']

example : List.Forall₂ (fun (x : BF) (n : Int) => x.val = n) [⟨3, 64⟩, ⟨-5, 2⟩] [3, -5] := by simp
example : sum true (.val [.val (some ⟨3, 64⟩), .val (some ⟨-5, 512⟩)]) = .ok (.val ⟨-2, 512⟩) := by decide +kernel

/-! ### transpose -/

theorem insB_perm (x : Bytes) (l : List Bytes) : (insB x l).Perm (x :: l) := by
  induction l with
  | nil => exact List.Perm.refl _
  | cons y l ih =>
    simp only [insB]
    split
    · exact (ih.cons y).trans (List.Perm.swap _ _ _)
    · exact List.Perm.refl _

theorem sortB_perm (l : List Bytes) : (sortB l).Perm l := by
  induction l with
  | nil => exact List.Perm.refl _
  | cons x l ih => exact (insB_perm x _).trans (ih.cons x)

theorem le_of_ltB {x y : Bytes} (h : ltB x y = true) : x ≤ y := List.le_of_lt ((ltB_iff x y).1 h)

theorem le_of_not_ltB {x y : Bytes} (h : ¬ ltB y x = true) : x ≤ y := by
  rw [ltB_iff] at h
  exact List.not_lt.1 h

theorem insB_inOrder {x : Bytes} {l : List Bytes} (h : InOrder l) : InOrder (insB x l) := by
  induction l with
  | nil => simp [insB, InOrder]
  | cons y l ih =>
    simp only [InOrder, List.pairwise_cons] at h
    simp only [insB]
    split
    · rename_i hy
      simp only [InOrder, List.pairwise_cons]
      refine ⟨fun z hz => ?_, ih h.2⟩
      rcases List.mem_cons.1 ((insB_perm x l).mem_iff.1 hz) with rfl | hz
      · exact le_of_ltB hy
      · exact h.1 z hz
    · rename_i hy
      simp only [InOrder, List.pairwise_cons]
      refine ⟨fun z hz => ?_, h⟩
      rcases List.mem_cons.1 hz with rfl | hz
      · exact le_of_not_ltB hy
      · exact List.le_trans (le_of_not_ltB hy) (h.1 z hz)

theorem sortB_inOrder (l : List Bytes) : InOrder (sortB l) := by
  induction l with
  | nil => simp [sortB, InOrder]
  | cons x l ih => exact insB_inOrder ih

/-- What holds of the map at every step. -/
def Good (m : GoMap Bytes (List Bytes)) : Prop :=
  SortedK m ∧ ∀ k l, GoMap.get? m k = some l → l ≠ [] ∧ InOrder l

theorem transposeInner_spec (k : Bytes) (l : List Bytes) (tmp : GoMap Bytes (List Bytes)) (hg : Good tmp) :
    ∃ out, transposeInner k (l.map .val) tmp = some out ∧ Good out ∧
      ∀ x y, (listOf out y).count x = (listOf tmp y).count x + if k = x then l.count y else 0 := by
  induction l generalizing tmp with
  | nil => exact ⟨tmp, rfl, hg, by simp⟩
  | cons z l ih =>
    have hg' : Good (insertK ltB z (sortB ((GoMap.get? tmp z).getD [] ++ [k])) tmp) := by
      refine ⟨hg.1.insert, fun k' l' h => ?_⟩
      rw [get?_insertK] at h
      split at h
      · cases h
        refine ⟨fun e => ?_, sortB_inOrder _⟩
        have := (sortB_perm ((GoMap.get? tmp z).getD [] ++ [k])).length_eq
        rw [e] at this
        simp at this
      · exact hg.2 k' l' h
    obtain ⟨out, h1, h2, h3⟩ := ih _ hg'
    refine ⟨out, by simpa [transposeInner] using h1, h2, fun x y => ?_⟩
    rw [h3]
    have hl : (listOf (insertK ltB z (sortB ((GoMap.get? tmp z).getD [] ++ [k])) tmp) y).count x =
        (listOf tmp y).count x + if z = y then (if k = x then 1 else 0) else 0 := by
      simp only [listOf, get?_insertK]
      by_cases hz : z = y
      · subst hz
        simp only [if_true, Option.getD_some, (sortB_perm _).count_eq, List.count_append]
        congr 1
        simp [List.count_singleton]
      · simp [hz]
    rw [hl]
    by_cases hk : k = x <;> by_cases hz : z = y <;> simp [hk, hz, List.count_cons] <;> omega

theorem transposeLoop_spec (m : GoMap Bytes (List Bytes)) (tmp : GoMap Bytes (List Bytes)) (hg : Good tmp)
    (hn : (GoMap.keys m).Nodup) :
    ∃ out, transposeLoop (known m) tmp = some out ∧ Good out ∧
      ∀ x y, (listOf out y).count x = (listOf tmp y).count x + (listOf m x).count y := by
  induction m generalizing tmp with
  | nil => exact ⟨tmp, rfl, hg, by simp [listOf, GoMap.get?]⟩
  | cons e m ih =>
    obtain ⟨k, l⟩ := e
    obtain ⟨t, h1, h2, h3⟩ := transposeInner_spec k l tmp hg
    have hn' : k ∉ GoMap.keys m ∧ (GoMap.keys m).Nodup := by simpa [GoMap.keys] using hn
    obtain ⟨out, h4, h5, h6⟩ := ih t h2 hn'.2
    refine ⟨out, by simpa [known, transposeLoop, h1] using h4, h5, fun x y => ?_⟩
    rw [h6, h3]
    by_cases hk : k = x
    · subst hk
      have : GoMap.get? m k = none := by
        cases hh : GoMap.get? m k with
        | none => rfl
        | some v => exact absurd (GoMap.get?_isSome.1 (by simp [hh])) hn'.1
      simp [listOf, GoMap.get?, this]
    · simp [listOf, GoMap.get?, hk]

theorem hasUnk_known (m : GoMap Bytes (List Bytes)) : hasUnk (known m) = false := by
  simp [hasUnk, known, List.any_eq_false, K.isUnk]

/-- C22: in the transposed map `x` is in the list of `y` as often as `y` is in the list of `x`; the keys are sorted,
the lists are sorted and none is empty. -/
theorem C22_transpose {m : GoMap Bytes (List Bytes)} (hn : (GoMap.keys m).Nodup) :
    ∃ out, transpose (.val (known m)) = .ok (.val out) ∧ InOrder (GoMap.keys out) ∧ (GoMap.keys out).Nodup ∧
      (∀ k l, GoMap.get? out k = some l → l ≠ [] ∧ InOrder l) ∧
      ∀ x y, (listOf out y).count x = (listOf m x).count y := by
  obtain ⟨out, h1, h2, h3⟩ := transposeLoop_spec m [] ⟨List.Pairwise.nil, by simp [GoMap.get?]⟩ hn
  refine ⟨out, ?_, ?_, h2.1.nodup, h2.2, fun x y => ?_⟩
  · simp [transpose, call, hasUnk_known, h1]
  · exact List.pairwise_map.2 (h2.1.imp fun h => le_of_ltB h)
  · simpa [listOf, GoMap.get?] using h3 x y

/-- C22: transposing twice sorts the lists and drops the empty ones. -/
theorem C22_transpose_twice {m out out' : GoMap Bytes (List Bytes)} (hn : (GoMap.keys m).Nodup)
    (h1 : transpose (.val (known m)) = .ok (.val out)) (h2 : transpose (.val (known out)) = .ok (.val out')) :
    ∀ k, (listOf out' k).Perm (listOf m k) ∧ InOrder (listOf out' k) ∧
      (k ∈ GoMap.keys out' ↔ listOf m k ≠ []) := by
  obtain ⟨o1, a1, _, a3, _, a5⟩ := C22_transpose hn
  rw [h1] at a1; cases a1
  obtain ⟨o2, b1, _, _, b4, b5⟩ := C22_transpose a3
  rw [h2] at b1; cases b1
  intro k
  have hp : (listOf out' k).Perm (listOf m k) := List.perm_iff_count.2 fun y => by rw [b5, a5]
  refine ⟨hp, ?_, ?_⟩
  · cases h : GoMap.get? out' k with
    | none => simp [listOf, h, InOrder]
    | some l => simpa [listOf, h] using (b4 k l h).2
  · rw [← GoMap.get?_isSome]
    cases h : GoMap.get? out' k with
    | none =>
      have e : listOf m k = [] := by
        have := hp.length_eq
        simp only [listOf, h, Option.getD_none, List.length_nil] at this
        exact List.length_eq_zero_iff.1 (by simpa [listOf] using this.symm)
      simp [e]
    | some l =>
      have := (b4 k l h).1
      refine ⟨fun _ e => this ?_, fun _ => rfl⟩
      have hl := hp.length_eq
      rw [e] at hl
      exact List.length_eq_zero_iff.1 (by simpa [listOf, h] using hl)

example : transpose (.val (known [(b "a", [b "y", b "x", b "x"]), (b "b", [b "x"]), (b "c", [])])) =
    .ok (.val [(b "x", [b "a", b "a", b "b"]), (b "y", [b "a"])]) := by decide +kernel
example : transpose (.val (known [(b "x", [b "a", b "a", b "b"]), (b "y", [b "a"])])) =
    .ok (.val [(b "a", [b "x", b "x", b "y"]), (b "b", [b "x"])]) := by decide +kernel

/-- Whether a null list is in the map, or a null in one of its lists. -/
def HasNull (m : GoMap Bytes (K (List (K Bytes)))) : Prop := ∃ k x, (k, x) ∈ m ∧ (x = .null ∨ ∃ l, x = .val l ∧ .null ∈ l)

/-- Whether an unknown list is in the map, or an unknown value in one of its lists. -/
def HasUnknown (m : GoMap Bytes (K (List (K Bytes)))) : Prop := ∃ k x, (k, x) ∈ m ∧ (x = .unk ∨ ∃ l, x = .val l ∧ .unk ∈ l)

theorem hasUnk_iff {m : GoMap Bytes (K (List (K Bytes)))} : hasUnk m = true ↔ HasUnknown m := by
  simp only [hasUnk, List.any_eq_true, HasUnknown]
  constructor
  · rintro ⟨⟨k, x⟩, h, hx⟩
    refine ⟨k, x, h, ?_⟩
    cases x with
    | unk => exact .inl rfl
    | null => simp at hx
    | val l =>
      obtain ⟨y, hy, e⟩ := List.any_eq_true.1 hx
      cases y <;> simp [K.isUnk] at e
      exact .inr ⟨l, rfl, hy⟩
  · rintro ⟨k, x, h, rfl | ⟨l, rfl, hl⟩⟩
    · exact ⟨_, h, rfl⟩
    · exact ⟨_, h, List.any_eq_true.2 ⟨_, hl, rfl⟩⟩

theorem transposeInner_none {k : Bytes} {l : List (K Bytes)} {tmp : GoMap Bytes (List Bytes)} (hu : K.unk ∉ l) :
    transposeInner k l tmp = none ↔ K.null ∈ l := by
  induction l generalizing tmp with
  | nil => simp [transposeInner]
  | cons x l ih =>
    simp only [List.mem_cons, not_or] at hu ⊢
    cases x with
    | unk => exact absurd rfl hu.1
    | null => simp [transposeInner]
    | val y => simp [transposeInner, ih hu.2]

theorem transposeLoop_none {m : GoMap Bytes (K (List (K Bytes)))} {tmp : GoMap Bytes (List Bytes)} (hu : ¬ HasUnknown m) :
    transposeLoop m tmp = none ↔ HasNull m := by
  induction m generalizing tmp with
  | nil => simp [transposeLoop, HasNull]
  | cons e m ih =>
    obtain ⟨k, x⟩ := e
    have hm : ¬ HasUnknown m := fun ⟨k', x', h, h'⟩ => hu ⟨k', x', List.mem_cons_of_mem _ h, h'⟩
    have hn : HasNull ((k, x) :: m) ↔ (x = .null ∨ ∃ l, x = .val l ∧ .null ∈ l) ∨ HasNull m := by
      simp only [HasNull, List.mem_cons, Prod.mk.injEq]
      constructor
      · rintro ⟨k', x', ⟨rfl, rfl⟩ | h, h'⟩
        · exact .inl h'
        · exact .inr ⟨k', x', h, h'⟩
      · rintro (h | ⟨k', x', h, h'⟩)
        · exact ⟨k, x, .inl ⟨rfl, rfl⟩, h⟩
        · exact ⟨k', x', .inr h, h'⟩
    rw [hn]
    cases x with
    | unk => exact absurd ⟨k, _, List.mem_cons_self, .inl rfl⟩ hu
    | null => simp [transposeLoop]
    | val l =>
      have hl : K.unk ∉ l := fun h => hu ⟨k, _, List.mem_cons_self, .inr ⟨l, rfl, h⟩⟩
      simp only [transposeLoop, reduceCtorEq, K.val.injEq, false_or, exists_eq_left']
      rw [← transposeInner_none (k := k) (tmp := tmp) hl]
      cases ht : transposeInner k l tmp with
      | none => simp
      | some t => simp [ih hm]

/-- C22: the transposed map is unknown exactly if some value in the map is unknown, at either level; otherwise it fails
exactly if there is a null. -/
theorem C22_transpose_unknown (m : GoMap Bytes (K (List (K Bytes)))) :
    (transpose (.val m) = .ok .unk ↔ HasUnknown m) ∧
    (transpose (.val m) = .error () ↔ ¬ HasUnknown m ∧ HasNull m) := by
  simp only [transpose, call]
  by_cases h : HasUnknown m
  · simp [hasUnk_iff.2 h, h]
  · have h' : hasUnk m = false := by
      cases e : hasUnk m with
      | false => rfl
      | true => exact absurd (hasUnk_iff.1 e) h
    simp only [h', Bool.false_eq_true, if_false, h, not_false_eq_true, true_and, iff_false]
    rw [← transposeLoop_none (tmp := []) h]
    cases transposeLoop m [] <;> simp

example : transpose (.val [(b "a", .val [.val (b "x")]), (b "c", .unk), (b "d", .null)]) = .ok .unk ∧
    transpose (.val [(b "a", .val [.val (b "x"), .null])]) = .error () := ⟨rfl, rfl⟩

/-! ### lookup -/

section
variable {α : Type} {quote : Bytes → Bytes} {conv : α → Option α} {m : Marked (K (GoMap Bytes (Marked α)))}
  {key : Marked (K Bytes)}

/-- C22: a key that is present gives its value, whether or not there is a default. -/
theorem C22_lookup_found {isObj : Bool} {dflt : Option (Marked α)} {mv : GoMap Bytes (Marked α)} {k : Bytes}
    {x : Marked α} (hm : m.v = .val mv) (hk : key.v = .val k) (hx : GoMap.get? mv k = some x)
    (hd : isObj = false → ∀ d, dflt = some d → conv d.v ≠ none) :
    ∃ r, lookup quote conv isObj m key dflt = .ok r ∧ r.v = x.v ∧
      ∀ a, a ∈ r.marks ↔ a ∈ x.marks ∨ a ∈ m.marks ∨ a ∈ key.marks := by
  refine ⟨x.withMarks (m.marks ++ key.marks), ?_, rfl, by simp [Marked.withMarks]⟩
  cases isObj
  · cases dflt with
    | none => simp [lookup, hm, hk, hx]
    | some d =>
      cases hc : conv d.v with
      | none => exact absurd hc (hd rfl d rfl)
      | some c => simp [lookup, hm, hk, hx, hc]
  · simp [lookup, hm, hk, hx]

/-- C22: a key that is absent gives the default, converted for a map; marks are kept. -/
theorem C22_lookup_default {isObj : Bool} {d : Marked α} {c : α} {mv : GoMap Bytes (Marked α)} {k : Bytes}
    (hm : m.v = .val mv) (hk : key.v = .val k) (hx : GoMap.get? mv k = none)
    (hc : if isObj then c = d.v else conv d.v = some c) :
    ∃ r, lookup quote conv isObj m key (some d) = .ok r ∧ r.v = c ∧
      ∀ a, a ∈ r.marks ↔ a ∈ d.marks ∨ a ∈ m.marks ∨ a ∈ key.marks := by
  cases isObj
  · simp only [Bool.false_eq_true, if_false] at hc
    exact ⟨⟨c, d.marks ++ (m.marks ++ key.marks)⟩, by simp [lookup, hm, hk, hx, hc], rfl, by simp⟩
  · simp only [if_true] at hc
    exact ⟨d.withMarks (m.marks ++ key.marks), by simp [lookup, hm, hk, hx], by simp [Marked.withMarks, hc],
      by simp [Marked.withMarks]⟩

/-- C22: the error for a map does not tell a sensitive key: it is the same for all absent keys. -/
theorem C22_lookup_redacted {mv : GoMap Bytes (Marked α)} {k k' : Bytes} {ms : List Mark}
    (hm : m.v = .val mv) (hs : sensitiveMark ∈ ms) (h : GoMap.get? mv k = none) (h' : GoMap.get? mv k' = none) :
    ∃ e, lookup quote conv false m ⟨.val k, ms⟩ none = .err e ∧
      lookup quote conv false m ⟨.val k', ms⟩ none = .err e := by
  refine ⟨b "lookup failed to find key " ++ b "(sensitive value)", ?_, ?_⟩ <;>
    simp [lookup, hm, h, h', redactIfSensitive, hs]

end

/-- C22: the error for an object does tell it (collection.go L265). -/
theorem C22_violated_lookup :
    ∃ k k' : Bytes, ∃ e e' : Bytes, e ≠ e' ∧
      lookup (α := Unit) (fun s => s) some true ⟨.val [], []⟩ ⟨.val k, [sensitiveMark]⟩ none = .err e ∧
      lookup (α := Unit) (fun s => s) some true ⟨.val [], []⟩ ⟨.val k', [sensitiveMark]⟩ none = .err e' :=
  ⟨b "s3cret", b "hunter2", _, _, by decide, rfl, rfl⟩

example : lookup (fun s => s) some false ⟨.val [(b "a", (⟨1, [b "m"]⟩ : Marked Nat))], [b "n"]⟩
    ⟨.val (b "a"), [sensitiveMark]⟩ (some ⟨2, []⟩) = .ok ⟨1, [b "m", b "n", sensitiveMark]⟩ := by decide

/-! ## C25 -/

/-- C25: the part that holds.  Missing: `sensitive` does not keep the other marks. -/
theorem C25_partial {α : Type} (x : Marked α) :
    (sensitive x).v = x.v ∧ sensitiveMark ∈ (sensitive x).marks ∧ (nonsensitive x).v = x.v ∧
    ∀ a, a ∈ (nonsensitive x).marks ↔ a ∈ x.marks ∧ a ≠ sensitiveMark := by
  simp [sensitive, nonsensitive]

/-- C25 is violated: `sensitive` loses every other mark. -/
theorem C25_violated {α : Type} (v : α) {ms : List Mark} {a : Mark} (_ : a ∈ ms) (h : a ≠ sensitiveMark) :
    a ∉ (sensitive ⟨v, ms⟩).marks := by
  simpa [sensitive] using h

example : b "TypeType" ∈ [b "TypeType", sensitiveMark] ∧ b "TypeType" ≠ sensitiveMark := by decide
example : nonsensitive ⟨7, [b "TypeType", sensitiveMark]⟩ = ⟨7, [b "TypeType"]⟩ ∧
    sensitive ⟨7, [b "TypeType"]⟩ = ⟨7, [sensitiveMark]⟩ := by decide

end Verif.Funcs
