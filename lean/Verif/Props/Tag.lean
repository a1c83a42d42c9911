import Verif.Lemmas.Tag
/-!
# C144: the tags of struct fields
-/
namespace Verif.HclS

/-- **C144, what is read.**  `tag2` gives the parts before and behind the first comma of what follows `hcl:"` in the first word that
starts so (in any case), without the last byte of the word; nothing if there is no such word. -/
theorem C144_reads {t n k : Bytes} : tag2P t = .ok (n, k) ↔
    ∃ ws, Words t ws ∧ (((∀ w ∈ ws, ∀ rest, ¬HclWord w rest) ∧ n = [] ∧ k = []) ∨
      ∃ pre w post body x, ws = pre ++ w :: post ∧ (∀ v ∈ pre, ∀ rest, ¬HclWord v rest) ∧ HclWord w (body ++ [x]) ∧ Halves body n k) := by
  simp only [words_iff, exists_eq_left']
  constructor
  · intro h
    unfold tag2P at h
    rcases firstHcl (fieldsLoop [] t) with hn | ⟨pre, w, post, rest, e, hp, hw⟩
    · have := tagLoopP_none hn []
      rw [List.append_nil, h] at this
      cases this
      exact .inl ⟨hn, rfl, rfl⟩
    · rw [e, tagLoopP_none hp, tagLoopP_hcl hw] at h
      split at h
      · cases h
      · next hne =>
        refine .inr ⟨pre, w, post, rest.dropLast, rest.getLast hne, e, hp, by rwa [List.dropLast_concat_getLast], ?_⟩
        exact splitTag_iff.1 (by injection h)
  · rintro (⟨hn, rfl, rfl⟩ | ⟨pre, w, post, body, x, e, hp, hw, hh⟩)
    · have := tagLoopP_none hn []
      rw [List.append_nil] at this
      exact this
    · unfold tag2P
      rw [e, tagLoopP_none hp, tagLoopP_hcl hw, if_neg (by simp), List.dropLast_concat, splitTag_iff.2 hh]

/-- **C144, the panic.**  `tag2` panics if the first word that starts with `hcl:"` ends there, and never otherwise. -/
theorem C144_panics {t : Bytes} : (∃ x, tag2P t = .error x) ↔
    ∃ ws pre w post, Words t ws ∧ ws = pre ++ w :: post ∧ (∀ v ∈ pre, ∀ rest, ¬HclWord v rest) ∧ HclWord w [] := by
  constructor
  · rintro ⟨x, h⟩
    unfold tag2P at h
    rcases firstHcl (fieldsLoop [] t) with hn | ⟨pre, w, post, rest, e, hp, hw⟩
    · have := tagLoopP_none hn []
      rw [List.append_nil, h] at this
      cases this
    · have h' := h
      rw [e, tagLoopP_none hp, tagLoopP_hcl hw] at h'
      split at h'
      · next hr => exact ⟨_, pre, w, post, words_iff.2 rfl, e, hp, hr ▸ hw⟩
      · cases h'
  · rintro ⟨ws, pre, w, post, ht, e, hp, hw⟩
    refine ⟨.panic, ?_⟩
    unfold tag2P
    rw [words_iff.1 ht, e, tagLoopP_none hp, tagLoopP_hcl hw]
    rfl

/-- **C144, in part.**  For a tag in the conventional form, with values that contain no white space, quotes and backslashes, and no key
that is `hcl` in another case, `dethcl` and `gohcl` read the same name and kind: those of the first value with the key `hcl`.
Missing: all other tags (`C144_violated`). -/
theorem C144_agree_partial {unq : Bytes → Option Bytes} (hu : PlainUnquote unq) {t : Bytes} {ps : List (Bytes × Bytes)}
    (h : Conventional t ps) (hk : ∀ p ∈ ps, GoodKey p.1) (hv : ∀ p ∈ ps, GoodValue p.2 ∧ utf8Valid p.2 = true)
    (hh : ∀ p ∈ ps, HclKey p.1 → p.1 = b "hcl") :
    tag2P t = .ok (gohclTag unq t) ∧
      (∀ pre v post, ps = pre ++ (b "hcl", v) :: post → (∀ p ∈ pre, p.1 ≠ b "hcl") → tagGet unq t (b "hcl") = v) ∧
      ((∀ p ∈ ps, p.1 ≠ b "hcl") → tagGet unq t (b "hcl") = []) := by
  have e : tagGet unq t (b "hcl") = (valueOf1 (b "hcl") ps).getD [] := by
    rw [tagGet, lookup_conventional hu _ h hk hv _ (Nat.lt_succ_self _)]
  refine ⟨?_, ?_, ?_⟩
  · rw [gohclTag, e, tag2P, words_iff.1 (words_conventional h hk fun p hp => (hv p hp).1), tagLoopP_pairs hk hh]
  · rintro pre v post rfl hp
    rw [e, valueOf1, List.find?_append, List.find?_eq_none.2 (by simpa using hp)]
    simp
  · intro hp
    rw [e, valueOf1, List.find?_eq_none.2 (by simpa using hp)]
    rfl

/-- An `Unquote` that only knows texts without escapes. -/
def plainUnq (v : Bytes) : Option Bytes := if v.any (fun c => c = 34 || c = 92 || c = 10) then none else some v

theorem plainUnq_ok : PlainUnquote plainUnq := by
  intro v _ h
  unfold plainUnq
  rw [if_neg]
  simp only [List.any_eq_true, Bool.or_eq_true, decide_eq_true_eq]
  rintro ⟨c, hc, h'⟩
  have := h c hc
  rcases h' with (h' | h') | h'
  · exact this.1 h'
  · exact this.2.1 h'
  · exact this.2.2 h'

/-- **C144 is violated**: in the conventional form, a value with a space is cut off and loses its last letter, a space at its start is a
panic, and a key in upper case is read by `dethcl` alone; of tags not in that form, pairs without a space between them are read by
`gohcl` alone and pairs behind a tab by `dethcl` alone. -/
theorem C144_violated {unq : Bytes → Option Bytes} (hu : PlainUnquote unq) :
    (Conventional (b "hcl:\"my name,label\"") [(b "hcl", b "my name,label")] ∧
      tag2P (b "hcl:\"my name,label\"") = .ok (b "m", []) ∧
      gohclTag unq (b "hcl:\"my name,label\"") = (b "my name", b "label")) ∧
    (Conventional (b "hcl:\" a\"") [(b "hcl", b " a")] ∧ tag2P (b "hcl:\" a\"") = .error .panic) ∧
    (Conventional (b "HCL:\"a,label\"") [(b "HCL", b "a,label")] ∧
      tag2P (b "HCL:\"a,label\"") = .ok (b "a", b "label") ∧ gohclTag unq (b "HCL:\"a,label\"") = ([], [])) ∧
    (tag2P (b "json:\"x\"hcl:\"a,label\"") = .ok ([], []) ∧ gohclTag unq (b "json:\"x\"hcl:\"a,label\"") = (b "a", b "label")) ∧
    (tag2P (b "json:\"x\"\thcl:\"a,label\"") = .ok (b "a", b "label") ∧ gohclTag unq (b "json:\"x\"\thcl:\"a,label\"") = ([], [])) := by
  have one : ∀ p : Bytes × Bytes, Conventional (pairText p) [p] := fun p => by
    have := Conventional.pair (s := []) (r := []) (p := p) (ps := []) (by simp) (.inl rfl) (.none (by simp))
    simpa using this
  have u1 : unq (b "my name,label") = some (b "my name,label") := hu _ (by decide +kernel) (by decide +kernel)
  have u2 : unq (b "a,label") = some (b "a,label") := hu _ (by decide +kernel) (by decide +kernel)
  refine ⟨⟨?_, by rfl, ?_⟩, ⟨?_, by rfl⟩, ⟨?_, by rfl, by rfl⟩, ⟨by rfl, ?_⟩, ⟨by rfl, by rfl⟩⟩
  · have := one (b "hcl", b "my name,label"); rwa [show pairText _ = b "hcl:\"my name,label\"" by decide +kernel] at this
  · have : gohclTag unq (b "hcl:\"my name,label\"") = splitTag ((unq (b "my name,label")).getD []) := by rfl
    rw [this, u1]; decide +kernel
  · have := one (b "hcl", b " a"); rwa [show pairText _ = b "hcl:\" a\"" by decide +kernel] at this
  · have := one (b "HCL", b "a,label"); rwa [show pairText _ = b "HCL:\"a,label\"" by decide +kernel] at this
  · have : gohclTag unq (b "json:\"x\"hcl:\"a,label\"") = splitTag ((unq (b "a,label")).getD []) := by rfl
    rw [this, u2]; decide +kernel

/-- `C144_agree_partial` applies to a field with a `json` and an `hcl` tag. -/
example : tag2P (b "json:\"first\" hcl:\"name,label\"") = .ok (gohclTag plainUnq (b "json:\"first\" hcl:\"name,label\"")) ∧
    gohclTag plainUnq (b "json:\"first\" hcl:\"name,label\"") = (b "name", b "label") := by
  refine ⟨(C144_agree_partial plainUnq_ok (ps := [(b "json", b "first"), (b "hcl", b "name,label")]) ?_ ?_ ?_ ?_).1, by rfl⟩
  · have h2 := Conventional.pair (s := [32]) (r := []) (p := (b "hcl", b "name,label")) (ps := []) (by simp) (.inl rfl) (.none (by simp))
    have := Conventional.pair (s := []) (r := [32] ++ pairText (b "hcl", b "name,label") ++ []) (p := (b "json", b "first")) (by simp)
      (.inr ⟨pairText (b "hcl", b "name,label") ++ [], rfl⟩) h2
    rwa [show ([] ++ pairText (b "json", b "first") ++ (([32] : Bytes) ++ pairText (b "hcl", b "name,label") ++ [])) =
      b "json:\"first\" hcl:\"name,label\"" by decide +kernel] at this
  · intro p hp
    simp only [List.mem_cons, List.not_mem_nil, or_false] at hp
    rcases hp with rfl | rfl <;> exact ⟨by decide +kernel, by decide +kernel⟩
  · intro p hp
    simp only [List.mem_cons, List.not_mem_nil, or_false] at hp
    unfold GoodValue Blank
    rcases hp with rfl | rfl <;> exact ⟨by decide +kernel, by decide +kernel⟩
  · intro p hp ⟨x, y, z, e, _⟩
    simp only [List.mem_cons, List.not_mem_nil, or_false] at hp
    rcases hp with rfl | rfl
    · have h : (b "json").length = 3 := congrArg List.length e
      exact absurd h (by decide +kernel)
    · rfl

/-- `C144_reads`: the second word. -/
example : tag2P (b " json:\"x\"  Hcl:\"a\"") = .ok (b "a", []) := by
  have hb : b " json:\"x\"  Hcl:\"a\"" = [32] ++ b "json:\"x\"" ++ b "  Hcl:\"a\"" := by decide +kernel
  have hb' : b "  Hcl:\"a\"" = [32, 32] ++ b "Hcl:\"a\"" ++ [] := by decide +kernel
  refine C144_reads.2 ⟨[b "json:\"x\"", b "Hcl:\"a\""], ?_, .inr ⟨[b "json:\"x\""], b "Hcl:\"a\"", [], b "a", 34, rfl, ?_, ?_, ?_⟩⟩
  · rw [hb]
    refine .word (by simp [Blank]) (by decide +kernel) (by unfold Blank; decide +kernel) (.inr ⟨32, b " Hcl:\"a\"", by decide +kernel, .inl rfl⟩) ?_
    rw [hb']
    exact .word (by simp [Blank]) (by decide +kernel) (by unfold Blank; decide +kernel) (.inl rfl) (.none (by simp))
  · rintro v hv rest ⟨x, y, z, e, hx, _⟩
    rw [List.mem_singleton.1 hv] at e
    have := congrArg List.head? e
    rw [show (b "json:\"x\"").head? = some 106 by decide +kernel] at this
    simp only [List.head?_cons, Option.some.injEq] at this
    rcases hx with rfl | rfl <;> exact absurd this (by decide)
  · exact ⟨72, 99, 108, by decide +kernel, .inr rfl, .inl rfl, .inl rfl⟩
  · exact ⟨by decide +kernel, .inl ⟨rfl, rfl⟩⟩

/-- `C144_panics`: a value that starts with a space. -/
example : ∃ x, tag2P (b "hcl:\" a\"") = .error x := by
  have hb : b "hcl:\" a\"" = [] ++ b "hcl:\"" ++ b " a\"" := by decide +kernel
  have hb' : b " a\"" = [32] ++ b "a\"" ++ [] := by decide +kernel
  refine C144_panics.2 ⟨[b "hcl:\"", b "a\""], [], b "hcl:\"", [b "a\""], ?_, rfl, by simp,
    ⟨104, 99, 108, by decide +kernel, .inl rfl, .inl rfl, .inl rfl⟩⟩
  rw [hb]
  refine .word (by simp) (by decide +kernel) (by unfold Blank; decide +kernel) (.inr ⟨32, b "a\"", by decide +kernel, .inl rfl⟩) ?_
  rw [hb']
  exact .word (by simp [Blank]) (by decide +kernel) (by unfold Blank; decide +kernel) (.inl rfl) (.none (by simp))

/-- What the rest of the model uses for `tag2` is the value of `tag2P`. -/
theorem C144_used {f : Fld} {n k : Bytes} (h : tag2P f.rawTag = .ok (n, k)) : f.tag = n ∧ f.what = k := by
  have := tag2P_tag2 h
  exact ⟨congrArg Prod.fst this, congrArg Prod.snd this⟩

end Verif.HclS
