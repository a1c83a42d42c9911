import Verif.Lemmas.HclAgainLocal
/-!
# The parser reads a block up to its closing brace, and what is before that is a file
-/
namespace Verif.HclAgain
open Hcl

theorem labels_local (ts : List Tok) : ∀ ls rest, parseLabels ts = .ok (ls, rest) →
    ∃ t c, t ≠ .eq ∧ ts = t :: c ++ rest ∧ ∀ rest', parseLabels (t :: c ++ rest') = .ok (ls, rest') := by
  induction ts with
  | nil => intro ls rest h; cases h
  | cons x r ih =>
    intro ls rest h
    cases x with
    | obrace => cases h; exact ⟨.obrace, [], (by intro h; cases h), rfl, fun _ => rfl⟩
    | str s =>
      rw [parseLabels] at h
      obtain ⟨y, h1, h2⟩ := map_ok h
      cases h2
      obtain ⟨t, c, _, hc, hl⟩ := ih _ _ h1
      refine ⟨.str s, t :: c, (by intro h; cases h), by rw [hc]; rfl, fun rest' => ?_⟩
      rw [List.cons_append, parseLabels, hl]; rfl
    | ident s =>
      rw [parseLabels] at h
      obtain ⟨y, h1, h2⟩ := map_ok h
      cases h2
      obtain ⟨t, c, _, hc, hl⟩ := ih _ _ h1
      refine ⟨.ident s, t :: c, (by intro h; cases h), by rw [hc]; rfl, fun rest' => ?_⟩
      rw [List.cons_append, parseLabels, hl]; rfl
    | _ => cases h

/-- `mid` reads as the body, before a closing brace and as a file. -/
def LocB (body : Body) (mid : List Tok) : Prop :=
  (∀ f rest, 3 * mid.length + 1 ≤ f → parseBody false f (mid ++ .cbrace :: rest) = .ok (body, rest)) ∧ ∀ f, 3 * mid.length + 1 ≤ f → parseBody true f mid = .ok (body, [])
def LocK (body : Body) (mid : List Tok) : Prop :=
  (∀ f rest, 3 * mid.length + 1 ≤ f → parseBlock f (mid ++ .cbrace :: rest) = .ok (body, rest)) ∧ ∀ f, 3 * mid.length + 1 ≤ f → parseBody true f mid = .ok (body, [])

theorem parseBody_attr (top : Bool) (f k : Nat) (n : Bytes) (r : List Tok) :
    parseBody top (f + 1) (List.replicate k .nl ++ .ident n :: .eq :: r) = (parseExpr true f r).bind fun e => (endItem e.2).bind fun r' =>
      (parseBody top f r').bind fun x => consAttr n e.1 x := by
  conv => lhs; unfold parseBody
  rw [skipNl_nls, skipNl_cons (by intro h; cases h)]

theorem parseBody_block (top : Bool) (f k : Nat) (n : Bytes) {t : Tok} (ht : t ≠ .eq) (r : List Tok) :
    parseBody top (f + 1) (List.replicate k .nl ++ .ident n :: t :: r) = (parseLabels (t :: r)).bind fun ls => (parseBlock f ls.2).bind fun inner =>
      (endItem inner.2).bind fun r' => (parseBody top f r').map fun x => consBlock n ls.1 inner.1 x := by
  conv => lhs; unfold parseBody
  rw [skipNl_nls, skipNl_cons (by intro h; cases h)]
  cases t <;> first | rfl | exact absurd rfl ht

theorem parseBody_close (f k : Nat) (r : List Tok) : parseBody false (f + 1) (List.replicate k .nl ++ .cbrace :: r) = .ok (.mk [] [], r) := by
  conv => lhs; unfold parseBody
  rw [skipNl_nls, skipNl_cons (by intro h; cases h)]
  rfl

theorem parseBody_end (f k : Nat) : parseBody true (f + 1) (List.replicate k .nl) = .ok (.mk [] [], []) := by
  have := skipNl_nls k []
  rw [List.append_nil] at this
  unfold parseBody
  rw [this]
  rfl

theorem parseBody_nil (f : Nat) : ∀ x, parseBody false f [] ≠ .ok x := by
  intro x h
  cases f with
  | zero => unfold parseBody at h; cases h
  | succ f => unfold parseBody at h; cases h

/-- Inside of a block an item is followed by a newline. -/
theorem endItem_false {f : Nat} {r r' : List Tok} {x : Body × List Tok} (h : endItem r = .ok r') (hb : parseBody false f r' = .ok x) : r = .nl :: r' := by
  unfold endItem at h
  split at h
  · cases h; exact absurd hb (parseBody_nil f x)
  · cases h; rfl
  · cases h

theorem stop_nl (r : List Tok) : Stop true (.nl :: r) := stop_of (k := 0) (fun _ => rfl) (by simp) (by simp)

theorem body_local : ∀ f, (∀ ts body rest, parseBody false f ts = .ok (body, rest) → ∃ mid, ts = mid ++ .cbrace :: rest ∧ LocB body mid) ∧
    ∀ ts body rest, parseBlock f ts = .ok (body, rest) → ∃ mid, ts = mid ++ .cbrace :: rest ∧ LocK body mid := by
  intro f
  induction f with
  | zero =>
    refine ⟨fun _ _ _ h => ?_, fun _ _ _ h => ?_⟩
    · unfold parseBody at h; cases h
    · unfold parseBlock at h; cases h
  | succ f ih =>
    obtain ⟨hB, hK⟩ := ih
    refine ⟨fun ts body rest h => ?_, fun ts body rest h => ?_⟩
    · obtain ⟨k, hk⟩ := skipNl_split ts
      generalize hs : skipNl ts = u at hk
      have blockCase : ∀ n t r, t ≠ .eq → u = .ident n :: t :: r → ∃ mid, ts = mid ++ .cbrace :: rest ∧ LocB body mid := by
        intro n t r ht hu
        rw [hk, hu, parseBody_block _ _ _ _ ht] at h
        obtain ⟨⟨ls, r1⟩, h1, h⟩ := bind_ok h
        obtain ⟨⟨inner, r2⟩, h2, h⟩ := bind_ok h
        obtain ⟨r3, h3, h⟩ := bind_ok h
        obtain ⟨⟨body', r4⟩, h4, h5⟩ := map_ok h
        unfold consBlock at h5
        cases h5
        obtain ⟨t', c, ht', hc, hl⟩ := labels_local _ _ _ h1
        obtain ⟨m1, hm1, hl1⟩ := hK _ _ _ h2
        have hr2 := endItem_false h3 h4
        obtain ⟨m2, hm2, hl2⟩ := hB _ _ _ h4
        dsimp only at hm1 hr2
        subst hm1 hr2 hm2
        refine ⟨List.replicate k .nl ++ .ident n :: (t' :: c ++ (m1 ++ .cbrace :: .nl :: m2)), by rw [hk, hu, hc]; simp, fun g rest' hg => ?_, fun g hg => ?_⟩
        · simp only [List.length_append, List.length_replicate, List.length_cons] at hg
          match g, hg with
          | g + 1, hg =>
            have e : List.replicate k .nl ++ .ident n :: (t' :: c ++ (m1 ++ .cbrace :: .nl :: m2)) ++ .cbrace :: rest' =
                List.replicate k .nl ++ .ident n :: t' :: (c ++ (m1 ++ .cbrace :: .nl :: (m2 ++ .cbrace :: rest'))) := by simp
            rw [e, parseBody_block _ _ _ _ ht', ← List.cons_append, hl]
            show (parseBlock g _).bind _ = _
            rw [hl1.1 g _ (by omega)]
            show (parseBody false g _).map _ = _
            rw [hl2.1 g _ (by omega)]; rfl
        · simp only [List.length_append, List.length_replicate, List.length_cons] at hg
          match g, hg with
          | g + 1, hg =>
            rw [List.cons_append, parseBody_block _ _ _ _ ht', ← List.cons_append, hl]
            show (parseBlock g _).bind _ = _
            rw [hl1.1 g _ (by omega)]
            show (parseBody true g _).map _ = _
            rw [hl2.2 g (by omega)]; rfl
      have h' := h
      unfold parseBody at h'
      rw [hs] at h'
      split at h'
      · cases h'
      · next r =>
        cases h'
        refine ⟨List.replicate k .nl, hk, fun g rest' hg => ?_, fun g hg => ?_⟩
        · match g, hg with
          | g + 1, _ => exact parseBody_close g k rest'
        · match g, hg with
          | g + 1, _ => exact parseBody_end g k
      · next n r =>
        obtain ⟨⟨e, r1⟩, h1, h'⟩ := bind_ok h'
        obtain ⟨r2, h2, h'⟩ := bind_ok h'
        obtain ⟨⟨body', r3⟩, h3, h'⟩ := bind_ok h'
        obtain ⟨c1, hc1, hl1⟩ := (local_all f).1 _ _ _ _ h1
        have hr1 := endItem_false h2 h3
        obtain ⟨m2, hm2, hl2⟩ := hB _ _ _ h3
        have hcons : ∀ x, consAttr n e (body', x) = .ok (body, x) := by
          intro x
          unfold consAttr at h' ⊢
          dsimp only at h' ⊢
          split at h'
          · cases h'
          · next hn => cases h'; rw [if_neg hn]
        have hrest : r3 = rest := by
          unfold consAttr at h'
          split at h'
          · cases h'
          · cases h'; rfl
        dsimp only at hr1
        subst hr1 hm2 hrest
        refine ⟨List.replicate k .nl ++ .ident n :: .eq :: (c1 ++ .nl :: m2), by rw [hk, hc1]; simp, fun g rest' hg => ?_, fun g hg => ?_⟩
        · simp only [List.length_append, List.length_replicate, List.length_cons] at hg
          match g, hg with
          | g + 1, hg =>
            have e' : List.replicate k .nl ++ .ident n :: .eq :: (c1 ++ .nl :: m2) ++ .cbrace :: rest' =
                List.replicate k .nl ++ .ident n :: .eq :: (c1 ++ .nl :: (m2 ++ .cbrace :: rest')) := by simp
            rw [e', parseBody_attr, hl1.2 g _ (by omega) (stop_nl _)]
            show (parseBody false g _).bind _ = _
            rw [hl2.1 g _ (by omega)]
            exact hcons rest'
        · simp only [List.length_append, List.length_replicate, List.length_cons] at hg
          match g, hg with
          | g + 1, hg =>
            rw [parseBody_attr, hl1.2 g _ (by omega) (stop_nl _)]
            show (parseBody true g _).bind _ = _
            rw [hl2.2 g (by omega)]
            exact hcons []
      · next n r hne =>
        cases r with
        | nil => cases h'
        | cons t r => exact blockCase n t r (fun he => hne r (by rw [he])) rfl
      · cases h'
    · unfold parseBlock at h
      split at h
      · next r =>
        obtain ⟨mid, rfl, hl⟩ := hB _ _ _ h
        refine ⟨.nl :: mid, rfl, fun g rest' hg => ?_, fun g hg => ?_⟩
        · rw [List.length_cons] at hg
          match g, hg with
          | g + 1, hg =>
            rw [List.cons_append]
            unfold parseBlock
            exact hl.1 g rest' (by omega)
        · rw [List.length_cons] at hg
          have := hl.2 g (by omega)
          match g, hg with
          | g + 1, hg =>
            unfold parseBody at this ⊢
            exact this
      · next r =>
        cases h
        refine ⟨[], rfl, fun g rest' hg => ?_, fun g hg => ?_⟩
        · match g, hg with
          | g + 1, _ => unfold parseBlock; rfl
        · match g, hg with
          | g + 1, _ => exact parseBody_end g 0
      · cases h

end Verif.HclAgain
