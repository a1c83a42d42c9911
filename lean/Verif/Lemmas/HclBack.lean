import Verif.Lemmas.HclRound
set_option linter.unusedSimpArgs false
/-! `Marshal` succeeds on exact data, and what comes back is the same data. -/
namespace Verif.Hcl
open Det (insertK ltB get?_insertK)

/-! ## Success -/

theorem scalar_total {nfc : Bytes → Bytes} {v : GV} (h : exact nfc v) (hs : (scalarText v).isSome = true) :
    ∃ t, (scalarText v).getD (.error ()) = .ok t := by
  cases v with
  | flt q =>
    simp only [exact, ExactNum] at h
    simp only [scalarText, Option.getD_some]
    rcases h with ⟨n, rfl, h1, h2⟩ | ⟨h0, h1, h2, h3⟩
    · rw [cn_int h1 h2]; exact ⟨_, rfl⟩
    · rw [cn_f32 h0 h1 h2]; exact ⟨_, rfl⟩
  | str s => exact ⟨_, rfl⟩
  | bool s => exact ⟨_, rfl⟩
  | int s => exact ⟨_, rfl⟩
  | _ => simp [scalarText] at hs

mutual
theorem encV_total (nfc : Bytes → Bytes) : ∀ (v : GV), exact nfc v → ∀ level kn, ∃ o, encV level kn v = .ok o
  | .nil, _, _, _ => ⟨_, rfl⟩
  | .nilList, _, _, _ => ⟨_, rfl⟩
  | .nilMap, _, _, _ => ⟨_, rfl⟩
  | .map m, h, level, kn => by
    simp only [exact] at h
    obtain ⟨arr, e⟩ := encMap_total nfc m h.1 level kn
    simp only [encV, e]; exact ⟨_, rfl⟩
  | .list l, h, level, kn => by
    simp only [exact] at h
    obtain ⟨arr, e⟩ := encList_total nfc l h level
    simp only [encV, e]; exact ⟨_, rfl⟩
  | .str s, h, level, kn => by
    obtain ⟨t, e⟩ := scalar_total (v := .str s) h rfl
    simp only [encV, e]; split <;> exact ⟨_, rfl⟩
  | .bool s, h, level, kn => by
    obtain ⟨t, e⟩ := scalar_total (v := .bool s) h rfl
    simp only [encV, e]; split <;> exact ⟨_, rfl⟩
  | .int s, h, level, kn => by
    obtain ⟨t, e⟩ := scalar_total (v := .int s) h rfl
    simp only [encV, e]; split <;> exact ⟨_, rfl⟩
  | .flt s, h, level, kn => by
    obtain ⟨t, e⟩ := scalar_total (v := .flt s) h rfl
    simp only [encV, e]; split <;> exact ⟨_, rfl⟩
theorem encList_total (nfc : Bytes → Bytes) : ∀ (l : List GV), exactL nfc l → ∀ level, ∃ arr, encList level l = .ok arr
  | [], _, _ => ⟨_, rfl⟩
  | v :: l, h, level => by
    simp only [exactL] at h
    obtain ⟨o, e⟩ := encV_total nfc v h.2.1 (level + 1) (some nmr)
    obtain ⟨arr, e'⟩ := encList_total nfc l h.2.2 level
    simp only [encList, e, e', Except.bind, Except.map]; exact ⟨_, rfl⟩
theorem encMap_total (nfc : Bytes → Bytes) : ∀ (m : List (Bytes × GV)), exactM nfc m → ∀ level kn, ∃ arr, encMap level kn m = .ok arr
  | [], _, _, _ => ⟨_, rfl⟩
  | (k, v) :: m, h, level, kn => by
    simp only [exactM] at h
    obtain ⟨o, e⟩ := encShort_total nfc v h.1 k level
    obtain ⟨o', e'⟩ := encLine_total nfc v h.1 k 0 level kn
    obtain ⟨arr, e''⟩ := encMap_total nfc m h.2 level kn
    simp only [encMap, e, e', e'']
    split
    · exact ⟨_, rfl⟩
    · split <;> exact ⟨_, rfl⟩
theorem encShort_total (nfc : Bytes → Bytes) : ∀ (v : GV), exact nfc v → ∀ name level, ∃ o, encShort name level v = .ok o
  | .nil, _, _, _ => ⟨_, rfl⟩
  | .nilList, _, _, _ => ⟨_, rfl⟩
  | .nilMap, _, _, _ => ⟨_, rfl⟩
  | .map m, h, name, level => by
    simp only [exact] at h
    obtain ⟨arr, e⟩ := encMap_total nfc m h.1 (level + 1) none
    simp only [encShort, e]; exact ⟨_, rfl⟩
  | .list l, h, name, level => by
    simp only [exact] at h
    obtain ⟨arr, e⟩ := encList_total nfc l h (level + 1)
    simp only [encShort, e]; exact ⟨_, rfl⟩
  | .str s, h, name, level => by
    obtain ⟨t, e⟩ := scalar_total (v := .str s) h rfl
    simp only [encShort, e]; exact ⟨_, rfl⟩
  | .bool s, h, name, level => by
    obtain ⟨t, e⟩ := scalar_total (v := .bool s) h rfl
    simp only [encShort, e]; exact ⟨_, rfl⟩
  | .int s, h, name, level => by
    obtain ⟨t, e⟩ := scalar_total (v := .int s) h rfl
    simp only [encShort, e]; exact ⟨_, rfl⟩
  | .flt s, h, name, level => by
    obtain ⟨t, e⟩ := scalar_total (v := .flt s) h rfl
    simp only [encShort, e]; exact ⟨_, rfl⟩
theorem encLine_total (nfc : Bytes → Bytes) : ∀ (v : GV), exact nfc v → ∀ name depth level kn,
    ∃ o, encLine name depth level kn v = .ok o
  | .nil, _, _, _, _, _ => ⟨_, rfl⟩
  | .nilList, _, _, _, _, _ => ⟨_, rfl⟩
  | .nilMap, _, _, _, _, _ => ⟨_, rfl⟩
  | .map m, h, name, depth, level, kn => by
    simp only [exact] at h
    obtain ⟨arr, e⟩ := encMap_total nfc m h.1 (level + 1) (some name)
    obtain ⟨arr', e'⟩ := encHash_total nfc m h.1 name depth level
    simp only [encLine, e, e']
    split <;> exact ⟨_, rfl⟩
  | .list l, h, name, depth, level, kn => by
    simp only [exact] at h
    obtain ⟨arr, e⟩ := encList_total nfc l h (level + 1)
    simp only [encLine, e]; exact ⟨_, rfl⟩
  | .str s, h, name, depth, level, kn => by
    obtain ⟨t, e⟩ := scalar_total (v := .str s) h rfl
    simp only [encLine, e]; exact ⟨_, rfl⟩
  | .bool s, h, name, depth, level, kn => by
    obtain ⟨t, e⟩ := scalar_total (v := .bool s) h rfl
    simp only [encLine, e]; exact ⟨_, rfl⟩
  | .int s, h, name, depth, level, kn => by
    obtain ⟨t, e⟩ := scalar_total (v := .int s) h rfl
    simp only [encLine, e]; exact ⟨_, rfl⟩
  | .flt s, h, name, depth, level, kn => by
    obtain ⟨t, e⟩ := scalar_total (v := .flt s) h rfl
    simp only [encLine, e]; exact ⟨_, rfl⟩
theorem encHash_total (nfc : Bytes → Bytes) : ∀ (m : List (Bytes × GV)), exactM nfc m → ∀ name depth level,
    ∃ arr, encHash name depth level m = .ok arr
  | [], _, _, _, _ => ⟨_, rfl⟩
  | (k, v) :: m, h, name, depth, level => by
    simp only [exactM] at h
    obtain ⟨o, e⟩ := encLine_total nfc v h.1 (name ++ 32 :: 34 :: k ++ [34]) (depth + 1) level none
    obtain ⟨arr, e'⟩ := encHash_total nfc m h.2 name depth level
    simp only [encHash, e, e', Except.bind, Except.map]; exact ⟨_, rfl⟩
end

/-! ## The text is neither blank nor in braces -/

theorem lexStart_space {c : UInt8} (h : isSpace c = true) : lexStart c = .ok (.start, []) ∨
    lexStart c = .ok (.start, [.nl]) ∨ lexStart c = .ok (.cr, []) ∨ lexStart c = .error .unsupported := by
  simp only [isSpace, Bool.or_eq_true, decide_eq_true_eq, Bool.and_eq_true, UInt8.le_iff_toNat_le] at h
  have : c = 32 ∨ c = 9 ∨ c = 10 ∨ c = 11 ∨ c = 12 ∨ c = 13 := by
    rcases h with h | h
    · exact .inl h
    · right
      have h9 : (9 : UInt8).toNat = 9 := rfl
      have h13 : (13 : UInt8).toNat = 13 := rfl
      rw [h9, h13] at h
      have : c.toNat = 9 ∨ c.toNat = 10 ∨ c.toNat = 11 ∨ c.toNat = 12 ∨ c.toNat = 13 := by omega
      rcases this with e | e | e | e | e
      · exact .inl (UInt8.toNat_inj.1 e)
      · exact .inr (.inl (UInt8.toNat_inj.1 e))
      · exact .inr (.inr (.inl (UInt8.toNat_inj.1 e)))
      · exact .inr (.inr (.inr (.inl (UInt8.toNat_inj.1 e))))
      · exact .inr (.inr (.inr (.inr (UInt8.toNat_inj.1 e))))
  rcases this with rfl | rfl | rfl | rfl | rfl | rfl
  · exact .inl rfl
  · exact .inl rfl
  · exact .inr (.inl rfl)
  · exact .inr (.inr (.inr rfl))
  · exact .inr (.inr (.inr rfl))
  · exact .inr (.inr (.inl rfl))

theorem lex_blank {t : Bytes} {ts : List Tok} (h : IsBlank t) :
    (lex .start t = .ok ts → skipNl ts = []) ∧ (lex .cr t = .ok ts → skipNl ts = []) := by
  induction t generalizing ts with
  | nil => constructor <;> intro e <;> simp [lex, lexEnd] at e; subst e; rfl
  | cons c t ih =>
    have hc := h c (by simp)
    have ih' := fun ts => ih (ts := ts) fun x hx => h x (by simp [hx])
    constructor
    · intro e
      simp only [lex, lexStep] at e
      obtain ⟨x, h1, h2⟩ := Except.bind_ok' e
      obtain ⟨ts', h3, h4⟩ := Except.map_ok' h2
      rcases lexStart_space hc with h0 | h0 | h0 | h0 <;> rw [h0] at h1 <;> cases h1
      · subst h4; exact (ih' ts').1 h3
      · subst h4; exact (ih' ts').1 h3
      · subst h4; exact (ih' ts').2 h3
    · intro e
      simp only [lex, lexStep] at e
      obtain ⟨x, h1, h2⟩ := Except.bind_ok' e
      obtain ⟨ts', h3, h4⟩ := Except.map_ok' h2
      split at h1
      · cases h1; subst h4; exact (ih' ts').1 h3
      · cases h1

theorem lex_brace {t : Bytes} {ts : List Tok} (h : (t.dropWhile isSpace).head? = some 123) :
    (lex .start t = .ok ts → ∃ r, skipNl ts = .obrace :: r) ∧ (lex .cr t = .ok ts → ∃ r, skipNl ts = .obrace :: r) := by
  induction t generalizing ts with
  | nil => simp at h
  | cons c t ih =>
    by_cases hc : isSpace c = true
    · rw [List.dropWhile_cons, if_pos hc] at h
      have ih' := fun ts => ih (ts := ts) h
      constructor
      · intro e
        simp only [lex, lexStep] at e
        obtain ⟨x, h1, h2⟩ := Except.bind_ok' e
        obtain ⟨ts', h3, h4⟩ := Except.map_ok' h2
        rcases lexStart_space hc with h0 | h0 | h0 | h0 <;> rw [h0] at h1 <;> cases h1
        · subst h4; exact (ih' ts').1 h3
        · subst h4; exact (ih' ts').1 h3
        · subst h4; exact (ih' ts').2 h3
      · intro e
        simp only [lex, lexStep] at e
        obtain ⟨x, h1, h2⟩ := Except.bind_ok' e
        obtain ⟨ts', h3, h4⟩ := Except.map_ok' h2
        split at h1
        · cases h1; subst h4; exact (ih' ts').1 h3
        · cases h1
    · rw [List.dropWhile_cons, if_neg hc] at h
      simp only [List.head?_cons, Option.some.injEq] at h
      subst h
      constructor
      · intro e
        simp only [lex, lexStep] at e
        obtain ⟨x, h1, h2⟩ := Except.bind_ok' e
        obtain ⟨ts', h3, h4⟩ := Except.map_ok' h2
        cases h1; subst h4
        exact ⟨_, rfl⟩
      · intro e
        simp only [lex, lexStep] at e
        obtain ⟨x, h1, h2⟩ := Except.bind_ok' e
        cases h1

theorem parse_blank {t : Bytes} {body : Body} (h : parseConfig t = .ok body) (hb : IsBlank t) : body = .mk [] [] := by
  unfold parseConfig at h
  obtain ⟨ts, h1, h2⟩ := Except.bind_ok' h
  obtain ⟨x, h3, h4⟩ := Except.map_ok' h2
  rw [parseBody, (lex_blank hb).1 h1] at h3
  simp at h3
  subst h3; exact h4.symm

theorem parse_brace {t : Bytes} {body : Body} (h : parseConfig t = .ok body) : (trimSpace t).head? ≠ some 123 := by
  intro hh
  have hd : (t.dropWhile isSpace).head? = some 123 := by
    have hp : trimSpace t <+: t.dropWhile isSpace := by
      unfold trimSpace
      rw [← List.reverse_suffix, List.reverse_reverse]
      exact List.dropWhile_suffix _
    obtain ⟨r, hr⟩ := hp
    rw [← hr]
    cases ht : trimSpace t with
    | nil => rw [ht] at hh; simp at hh
    | cons c x => rw [ht] at hh; simpa using hh
  unfold parseConfig at h
  obtain ⟨ts, h1, h2⟩ := Except.bind_ok' h
  obtain ⟨x, h3, h4⟩ := Except.map_ok' h2
  obtain ⟨r, hr⟩ := (lex_brace hd).1 h1
  rw [parseBody, hr] at h3
  simp at h3

theorem canonM_ne_nil {m : List (Bytes × GV)} (h : m ≠ []) : canonM m ≠ [] := by
  cases m with
  | nil => exact absurd rfl h
  | cons e m =>
    obtain ⟨k, v⟩ := e
    intro e
    have := get?_canonM ((k, v) :: m) k
    rw [e] at this
    simp [GoMap.get?] at this

/-- The text decodes to the data. -/
theorem decodeMap_back {ext : Ext} (ho : ∀ p ks, (ext.ord p ks).Perm ks) {m : List (Bytes × GV)} (hne : m ≠ [])
    (hok : okBody m) (hex : exactM ext.nfc m) (hun : uniformM m) {t : Bytes} (hp : parseConfig t = .ok (bodyOf m)) :
    decodeMap ext t = .ok (canonM m) := by
  have hdec := decodeBody_back ho hok hex hun []
  unfold decodeMap
  rw [if_neg, if_neg]
  · rw [hp]; exact hdec
  · rintro ⟨h1, -⟩; exact parse_brace hp h1
  · rw [trimSpace_eq_nil]
    intro hb
    have hb := parse_blank hp hb
    rw [hb] at hdec
    simp only [decodeBody, GoMap.keys, List.map_nil, List.perm_nil.1 (ho [] []), assignAll, Out.bind, decodeBlocks, blockResults,
      typesOf, List.filter_nil, dedupB, List.any_nil, Bool.false_eq_true, if_false] at hdec
    simp only [List.perm_nil.1 (ho _ []), assignAll, Out.bind] at hdec
    exact canonM_ne_nil hne (Out.ok.inj hdec).symm

theorem foldl_sorted_id {m : List (Bytes × GV)} (hs : SortedK m) :
    m.foldl (fun t e => insertK ltB e.1 e.2 t) [] = m := by
  have hsort : ∀ (l t : List (Bytes × GV)), SortedK t → SortedK (l.foldl (fun t e => insertK ltB e.1 e.2 t) t) := by
    intro l
    induction l with
    | nil => exact fun t h => h
    | cons e l ih => exact fun t h => ih _ h.insert
  refine (hsort m [] .nil).ext hs fun k => ?_
  rw [foldl_insert _ _ _ hs.nodup]
  simp [GoMap.get?]

/-! ## The same data -/

mutual
theorem same_canon (nfc : Bytes → Bytes) : ∀ v : GV, exact nfc v → Same v v.canon
  | .list l, h => by
    simp only [exact] at h
    have := sameL_canon nfc l h
    simp only [GV.canon, Same]
    cases l with
    | nil => exact .inr ⟨rfl, rfl⟩
    | cons v l => exact .inl ⟨_, rfl, this⟩
  | .map m, h => by
    simp only [exact] at h
    simp only [GV.canon, Same]
    refine ⟨_, rfl, sameM_canon nfc m h.1 (canonM m) ?_, ?_⟩
    · intro k v hv
      rw [get?_canonM, GoMap.mem_get? h.2 hv]; rfl
    · intro k hk
      have := GoMap.get?_isSome.2 hk
      rw [get?_canonM] at this
      exact GoMap.get?_isSome.1 (by simpa using this)
  | .int n, _ => by simp [GV.canon, Same, GV.value]
  | .flt q, _ => by
    simp only [GV.canon, Same]
    split
    · rename_i h
      simp only [GV.value]
      rw [(Rat.den_eq_one_iff q).1 h]
    · rfl
  | .nil, _ => by simp [GV.canon, Same]
  | .nilList, _ => by simp [GV.canon, Same]
  | .nilMap, _ => by simp [GV.canon, Same]
  | .str _, _ => by simp [GV.canon, Same]
  | .bool _, _ => by simp [GV.canon, Same]
theorem sameL_canon (nfc : Bytes → Bytes) : ∀ l : List GV, exactL nfc l → SameL l (canonL l)
  | [], _ => by simp [SameL, canonL]
  | v :: l, h => by
    simp only [exactL] at h
    simp only [SameL, canonL]
    exact ⟨_, _, rfl, same_canon nfc v h.2.1, sameL_canon nfc l h.2.2⟩
theorem sameM_canon (nfc : Bytes → Bytes) : ∀ m : List (Bytes × GV), exactM nfc m → ∀ m',
    (∀ k v, (k, v) ∈ m → GoMap.get? m' k = some v.canon) → SameM m m'
  | [], _, _, _ => by simp [SameM]
  | (k, v) :: m, h, m', hm => by
    simp only [exactM] at h
    simp only [SameM]
    exact ⟨⟨_, hm k v (by simp), same_canon nfc v h.1⟩, sameM_canon nfc m h.2 m' fun k v hv => hm k v (by simp [hv])⟩
end

mutual
/-- Equal data decodes to the same form. -/
theorem Same.canon : ∀ (v w : GV), Same v w → v.canon = w.canon
  | .list l, w, h => by
    simp only [Same] at h
    rcases h with ⟨l', rfl, h⟩ | ⟨rfl, rfl⟩
    · simp only [GV.canon, SameL.canon l l' h]
    · rfl
  | .map m, w, h => by
    simp only [Same] at h
    obtain ⟨m', rfl, h1, h2⟩ := h
    simp only [GV.canon]
    congr 1
    refine (sorted_canonM m).ext (sorted_canonM m') fun k => ?_
    rw [get?_canonM, get?_canonM]
    cases hk : GoMap.get? m k with
    | some v =>
      obtain ⟨w, e1, e2⟩ := SameM.canon m m' h1 k v hk
      rw [e1, Option.map_some, Option.map_some, e2]
    | none =>
      have : GoMap.get? m' k = none := by
        by_contra hn
        obtain ⟨w, hw⟩ := Option.ne_none_iff_exists'.1 hn
        have := GoMap.get?_isSome.2 (h2 k (GoMap.get?_isSome.1 (by rw [hw]; rfl)))
        rw [hk] at this; cases this
      rw [this]
  | .int n, w, h => by
    simp only [Same] at h
    cases w <;> simp only [GV.value, Option.some.injEq, reduceCtorEq] at h
    · rw [Int.cast_inj.1 h]
    · subst h; simp [GV.canon]
  | .flt q, w, h => by
    simp only [Same] at h
    cases w <;> simp only [GV.value, Option.some.injEq, reduceCtorEq] at h
    · subst h; simp [GV.canon]
    · rw [h]
  | .nil, w, h => by simp only [Same] at h; rw [h]
  | .nilList, w, h => by simp only [Same] at h; rw [h]
  | .nilMap, w, h => by simp only [Same] at h; rw [h]
  | .str _, w, h => by simp only [Same] at h; rw [h]
  | .bool _, w, h => by simp only [Same] at h; rw [h]
theorem SameL.canon : ∀ (l l' : List GV), SameL l l' → canonL l = canonL l'
  | [], l', h => by simp only [SameL] at h; rw [h]
  | v :: l, l', h => by
    simp only [SameL] at h
    obtain ⟨w, r, rfl, h1, h2⟩ := h
    simp only [canonL, Same.canon v w h1, SameL.canon l r h2]
theorem SameM.canon : ∀ (m m' : List (Bytes × GV)), SameM m m' → ∀ k v, GoMap.get? m k = some v →
    ∃ w, GoMap.get? m' k = some w ∧ v.canon = w.canon
  | [], _, _, k, v, h => by cases h
  | (k', v') :: m, m', h, k, v, hk => by
    simp only [SameM] at h
    simp only [GoMap.get?] at hk
    split at hk
    · rename_i e
      subst e
      cases hk
      obtain ⟨w, h1, h2⟩ := h.1
      exact ⟨w, h1, Same.canon _ w h2⟩
    · exact SameM.canon m m' h.2 k v hk
end

end Verif.Hcl
