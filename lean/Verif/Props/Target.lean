import Verif.Spec.Target
import Verif.Props.HclDecode
/-!
# The targets of `Unmarshal`
-/
namespace Verif.Hcl
open Det (insertK ltB)

variable {ext : Ext}

theorem map_nil_ok {t : Bytes} {d : List (Bytes × GV)} (h : decodeMap ext t = .ok d) :
    ∃ d', Entries ext t d' ∧ (∀ k, GoMap.get? d' k = GoMap.get? d k) ∧ (d' = [] ↔ d = []) := by
  have hn := (decodeMap_sorted h).nodup
  have hg : ∀ k, GoMap.get? (d.foldl (fun t e => insertK ltB e.1 e.2 t) []) k = GoMap.get? d k := by
    intro k
    rw [foldl_insert _ _ _ hn]
    simp [GoMap.get?]
  refine ⟨_, by rw [Entries, unmarshalMap, h]; rfl, hg, ?_, by rintro rfl; rfl⟩
  intro he
  cases d with
  | nil => rfl
  | cons e d =>
    have := hg e.1
    rw [he] at this
    simp [GoMap.get?] at this

theorem entries_decode {t : Bytes} {d' : List (Bytes × GV)} (h : Entries ext t d') : ∃ d, decodeMap ext t = .ok d ∧ (d' = [] ↔ d = []) ∧
    ∀ k, GoMap.get? d' k = GoMap.get? d k := by
  have h' := h
  simp only [Entries, unmarshalMap, Out.map_ok] at h
  obtain ⟨d, h1, _⟩ := h
  obtain ⟨d2, h2, h3, h4⟩ := map_nil_ok h1
  rw [Entries] at h2 h'
  rw [h'] at h2
  cases h2
  exact ⟨d, h1, h4, h3⟩

/-- **C146, what a call that succeeds does.** The document is added to the target.  Missing for the full claim: the calls that do not
succeed and do not report it, `C146_panics`, and the nil target. -/
theorem C146_partial {t : Bytes} {T T' : Target} (hT : T ≠ .none) (h : unmarshalTo ext t T = .ok T') : Adds ext t T T' := by
  cases T with
  | none => exact absurd rfl hT
  | map m =>
    simp only [unmarshalTo, Out.bind_ok, Out.map_ok] at h
    obtain ⟨d, h1, m', h2, rfl⟩ := h
    obtain ⟨d', h3, h4, h5⟩ := map_nil_ok h1
    cases m with
    | none =>
      cases d with
      | nil =>
        cases h2
        have := h5.2 rfl
        subst this
        exact .nil h3
      | cons e d => cases h2
    | some m =>
      simp only [addEntries, Out.ok.injEq] at h2
      subst h2
      refine .map h3 fun k => ?_
      rw [foldl_insert _ _ _ (decodeMap_sorted h1).nodup, h4]
  | slice l =>
    simp only [unmarshalTo, Out.map_ok] at h
    obtain ⟨l', h1, rfl⟩ := h
    obtain ⟨d, h2, rfl⟩ := C50_slice h1
    exact .slice h2
  | otherMap i => simp only [unmarshalTo, Out.bind_ok] at h; obtain ⟨_, _, h⟩ := h; cases h
  | otherSlice i => simp only [unmarshalTo, Out.bind_ok] at h; obtain ⟨_, _, h⟩ := h; cases h
  | _ => cases h

/-- **C146, when a call succeeds.** If and only if there is something that the document can be added to. -/
theorem C146_succeeds {t : Bytes} {T : Target} (hT : T ≠ .none) : (∃ T', unmarshalTo ext t T = .ok T') ↔ ∃ T', Adds ext t T T' := by
  refine ⟨fun ⟨T', h⟩ => ⟨T', C146_partial hT h⟩, ?_⟩
  rintro ⟨T', h⟩
  cases h with
  | map h1 _ =>
    obtain ⟨d, h2, _⟩ := entries_decode h1
    exact ⟨_, by rw [unmarshalTo, h2]; rfl⟩
  | nil h1 =>
    obtain ⟨d, h2, h3, _⟩ := entries_decode h1
    rw [h3.1 rfl] at h2
    exact ⟨_, by rw [unmarshalTo, h2]; rfl⟩
  | slice h1 =>
    simp only [Elements, unmarshalSlice, Out.map_ok] at h1
    obtain ⟨d, h1, _⟩ := h1
    exact ⟨_, by rw [unmarshalTo, unmarshalSlice, h1]; rfl⟩

/-- **C146, when a call panics.** Exactly if decoding the document panics, or it has been decoded and the target is a nil map and
the document has entries, or the target is a map or slice of another type. -/
theorem C146_panics {t : Bytes} {T : Target} : unmarshalTo ext t T = .panic ↔
    (match T with
      | .map m => unmarshalMap ext t [] = .panic ∨ m = .none ∧ ∃ d, Entries ext t d ∧ d ≠ []
      | .slice _ => unmarshalSlice ext t [] = .panic
      | .otherMap _ => unmarshalMap ext t [] = .panic ∨ ∃ d, Entries ext t d
      | .otherSlice _ => unmarshalSlice ext t [] = .panic ∨ ∃ d, Elements ext t d
      | _ => False) := by
  cases T with
  | map m =>
    dsimp only
    cases h : decodeMap ext t with
    | ok d =>
      obtain ⟨d', h3, h4, h5⟩ := map_nil_ok h
      have e : unmarshalMap ext t [] ≠ .panic := by rw [unmarshalMap, h]; exact fun h => by cases h
      simp only [unmarshalTo, h, Out.bind, e, false_or]
      constructor
      · intro hp
        cases m with
        | none =>
          refine ⟨rfl, d', h3, fun h => ?_⟩
          rw [h5.1 h] at hp
          cases hp
        | some m => cases hp
      · rintro ⟨rfl, d2, h6, h7⟩
        rw [Entries] at h3 h6
        rw [h3] at h6
        cases h6
        cases d with
        | nil => exact absurd (h5.2 rfl) h7
        | cons e d => rfl
    | panic => simp [unmarshalTo, unmarshalMap, Entries, h, Out.bind, Out.map]
    | err => simp [unmarshalTo, unmarshalMap, Entries, h, Out.bind, Out.map]
    | unsupported => simp [unmarshalTo, unmarshalMap, Entries, h, Out.bind, Out.map]
  | slice l => simp only [unmarshalTo, unmarshalSlice]; cases decodeSlice ext t <;> simp [Out.map, Out.bind]
  | otherMap i => simp only [unmarshalTo, unmarshalMap, Entries]; cases decodeMap ext t <;> simp [Out.map, Out.bind]
  | otherSlice i => simp only [unmarshalTo, unmarshalSlice, Elements]; cases decodeSlice ext t <;> simp [Out.map, Out.bind]
  | _ => simp [unmarshalTo]

theorem trim_head {s u : Bytes} {c : UInt8} (hs : ∀ x ∈ s, isSpace x = true) (hc : isSpace c = false) : (trimSpace (s ++ c :: u)).head? = some c := by
  have e1 : (s ++ c :: u).dropWhile isSpace = c :: u := by
    rw [List.dropWhile_append_of_pos hs, List.dropWhile_cons_of_neg (by simp [hc])]
  have e2 : (u.reverse ++ [c]).dropWhile isSpace = u.reverse.dropWhile isSpace ++ [c] := by
    rw [List.dropWhile_append]
    split
    · rename_i h
      rw [List.isEmpty_iff.1 h, List.dropWhile_cons_of_neg (by simp [hc])]
      rfl
    · rfl
  rw [trimSpace, e1, List.reverse_cons, e2]
  simp

/-- **C146 is violated: nil maps.** `var m map[string]interface{}; Unmarshal(dat, &m)` panics for every document with an attribute or
a block that a map that is not nil would get. -/
theorem C146_violated_nil (ho : ∀ p ks, (ext.ord p ks).Perm ks) {s u : Bytes} {c : UInt8} (hs : ∀ x ∈ s, isSpace x = true) (hc : isSpace c = false)
    (hb : c ≠ 123) {attrs : List (Bytes × Expr)} {blocks : List (Bytes × List Bytes × Body)}
    (hp : parseConfig (s ++ c :: u) = .ok (.mk attrs blocks)) (he : attrs ≠ [] ∨ blocks ≠ []) {m : List (Bytes × GV)} {T : Target}
    (hm : unmarshalTo ext (s ++ c :: u) (.map (some m)) = .ok T) : unmarshalTo ext (s ++ c :: u) (.map .none) = .panic := by
  have hh := trim_head (u := u) hs hc
  simp only [unmarshalTo, Out.bind_ok] at hm ⊢
  obtain ⟨d, h1, _⟩ := hm
  rw [h1]
  have h2 := h1
  rw [decodeMap, if_neg (by intro h; rw [h] at hh; cases hh), if_neg (by rintro ⟨h, _⟩; rw [hh] at h; exact hb (Option.some.inj h)), hp] at h2
  have hk := (C50_keys ho h2).1
  cases d with
  | cons e d => rfl
  | nil =>
    exfalso
    rcases he with he | he
    · obtain ⟨x, hx⟩ := List.exists_mem_of_ne_nil _ he
      exact absurd ((hk x.1).2 (.inl (List.mem_map_of_mem hx))) (by simp)
    · obtain ⟨x, hx⟩ := List.exists_mem_of_ne_nil _ he
      exact absurd ((hk x.1).2 (.inr (List.mem_map_of_mem hx))) (by simp)

/-- **C146 is violated.** `Unmarshal` panics for a nil map and for maps and slices of other types, and accepts anything, even what is
not HCL, for a nil target. -/
theorem C146_violated :
    unmarshalTo exExt (b "a = 1\n") (.map .none) = .panic ∧
    (∀ i, unmarshalTo exExt (b "a = \"x\"\n") (.otherMap i) = .panic) ∧
    (∀ i, unmarshalTo exExt (b "[\"x\"]") (.otherSlice i) = .panic) ∧
    (∀ t, unmarshalTo ext t .none = .ok .none) ∧ parseConfig (b "}") = .error .invalid := by
  have h1 : decodeMap exExt (b "a = 1\n") = .ok [(b "a", .int 1)] := by decide +kernel
  have h2 : decodeMap exExt (b "a = \"x\"\n") = .ok [(b "a", .str (b "x"))] := by decide +kernel
  have h3 : decodeSlice exExt (b "[\"x\"]") = .ok [.str (b "x")] := by decide +kernel
  refine ⟨?_, fun i => ?_, fun i => ?_, fun t => rfl, by decide +kernel⟩
  · rw [unmarshalTo, h1]; rfl
  · rw [unmarshalTo, h2]; rfl
  · rw [unmarshalTo, h3]; rfl

-- `C146_partial`: of two entries one is replaced and one stays, and there is a new one.
example : unmarshalTo exExt (b "a = 1\nc {\n}\n") (.map (some [(b "a", .int 0), (b "b", .int 2)])) =
    .ok (.map (some [(b "a", .int 1), (b "b", .int 2), (b "c", .map [])])) := by
  have h : decodeMap exExt (b "a = 1\nc {\n}\n") = .ok [(b "a", .int 1), (b "c", .map [])] := by decide +kernel
  rw [unmarshalTo, h]
  rfl

example {T' : Target} (h : unmarshalTo exExt (b "a = 1\nc {\n}\n") (.map (some [(b "a", .int 0), (b "b", .int 2)])) = .ok T') :
    Adds exExt (b "a = 1\nc {\n}\n") (.map (some [(b "a", .int 0), (b "b", .int 2)])) T' :=
  C146_partial (by simp) h

-- `C146_succeeds`, from the right to the left, for a slice.
example : ∃ T', unmarshalTo exExt (b "[1, 2]") (.slice [.nil]) = .ok T' :=
  (C146_succeeds (by simp)).2 ⟨_, .slice (d := [.int 1, .int 2]) (by rw [Elements]; decide +kernel)⟩

-- `C146_panics`, from the right to the left: a nil map, and a map that is not nil if the text is blank.
example : unmarshalTo exExt (b "a = 1\n") (.map .none) = .panic :=
  C146_panics.2 (.inr ⟨rfl, [(b "a", .int 1)], by rw [Entries]; decide +kernel, by simp⟩)

example : unmarshalTo exExt (b " \n") (.map (some [])) = .panic :=
  C146_panics.2 (.inl (by decide +kernel))

-- `C146_violated_nil`
example {T : Target} (h : unmarshalTo exExt (b " a = 1\n") (.map (some [])) = .ok T) : unmarshalTo exExt (b " a = 1\n") (.map .none) = .panic :=
  C146_violated_nil (s := b " ") (c := 97) (u := b " = 1\n") (fun _ _ => .refl _) (by decide) (by decide) (by decide)
    (attrs := [(b "a", .num 1)]) (blocks := []) (by decide +kernel) (.inl (by simp)) h

end Verif.Hcl
