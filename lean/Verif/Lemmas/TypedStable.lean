import Verif.Lemmas.Typed
/-!
# Lemmas about what results promise
-/
namespace Verif.Typed
open Funcs (K Res BF)

theorem BecomesAll.cons {v : V} {l l' : List V} (h : BecomesAll (v :: l) l') :
    ∃ v' t, l' = v' :: t ∧ Becomes v v' ∧ BecomesAll l t := by
  cases l' with
  | nil => cases h.1
  | cons v' t =>
    exact ⟨v', t, rfl, h.2 0 v v' rfl rfl, Nat.succ.inj h.1, fun i a c ha hc => h.2 (i + 1) a c (by simpa using ha) (by simpa using hc)⟩

theorem BecomesAll.nil {l' : List V} (h : BecomesAll [] l') : l' = [] := List.length_eq_zero_iff.1 h.1.symm

/-! ## Types -/

theorem checkArg_dyn {p : Param} {v v' : V} (h : Becomes v v') (hc : checkArg p v = .ok) : checkArg p v' ≠ .dyn := by
  intro hd
  unfold checkArg at hd
  split at hd
  · cases hd
  · split at hd
    · next ht =>
      have hv : v.ty = .dyn := fits_dyn (ht ▸ h.ty)
      split at hd
      · cases hd
      · next ha =>
        unfold checkArg at hc
        split at hc
        · cases hc
        · rw [hv] at hc; cases hc
    · split at hd <;> cases hd

theorem checkArgs_dyn (args : List V) : ∀ {args' : List V} {ps : List Param} {var : Option Param}, BecomesAll args args' →
    checkArgs ps var args = .ok → checkArgs ps var args' ≠ .dyn := by
  induction args with
  | nil => intro args' ps var h _; rw [h.nil]; intro h; simp [checkArgs] at h
  | cons v l ih =>
    intro args' ps var h hc
    obtain ⟨v', t, rfl, hv, ht⟩ := h.cons
    cases ps with
    | cons p ps =>
      simp only [checkArgs] at hc ⊢
      have hp : checkArg p v = .ok := by
        split at hc
        · assumption
        · exact hc
      rw [hp] at hc
      split
      · exact ih ht hc
      · exact checkArg_dyn hv hp
    | nil =>
      cases var with
      | none => intro h; simp [checkArgs] at h
      | some p =>
        simp only [checkArgs] at hc ⊢
        have hp : checkArg p v = .ok := by
          split at hc
          · assumption
          · exact hc
        rw [hp] at hc
        split
        · exact ih ht hc
        · exact checkArg_dyn hv hp

theorem get_names {α β : Type} (gs : List (Bytes × α)) : ∀ (ws : List (Bytes × β)), gs.map (·.1) = ws.map (·.1) → ∀ k : Bytes,
    (GoMap.get? gs k = none ∧ GoMap.get? ws k = none) ∨
    ∃ (i : Nat) (g : Bytes × α) (w : Bytes × β), gs[i]? = some g ∧ ws[i]? = some w ∧ GoMap.get? gs k = some g.2 ∧
      GoMap.get? ws k = some w.2 := by
  induction gs with
  | nil => intro ws h k; cases ws with
    | nil => exact .inl ⟨rfl, rfl⟩
    | cons => cases h
  | cons g gs ih =>
    intro ws h k
    cases ws with
    | nil => cases h
    | cons w ws =>
      simp only [List.map_cons, List.cons.injEq] at h
      obtain ⟨kg, ag⟩ := g
      obtain ⟨kw, aw⟩ := w
      obtain ⟨hk, ht⟩ := h
      simp only at hk
      subst hk
      simp only [GoMap.get?]
      split
      · exact .inr ⟨0, _, _, rfl, rfl, rfl, rfl⟩
      · rcases ih ws ht k with h | ⟨i, g, w, h1, h2, h3, h4⟩
        · exact .inl h
        · exact .inr ⟨i + 1, g, w, by simpa using h1, by simpa using h2, h3, h4⟩

theorem type_stable (x : Ext) (f : Fn) (hf : f ≠ .coalesce) {args args' : List V} (h : BecomesAll args args') {T T' : Ty}
    (ht : (f.spec x).type args = some T) (ht' : (f.spec x).type args' = some T') : Fits T' T := by
  cases f with
  | coalesce => exact absurd rfl hf
  | length =>
    have key : ∀ {l : List V} {T : Ty}, lengthType l = some T → T = .num := by
      intro l T h
      unfold lengthType at h
      split at h
      · split at h <;> cases h <;> rfl
      · cases h
    rw [key ht, key ht']; exact .num
  | allTrue | anyTrue => cases ht; cases ht'; exact .bool
  | index | sum => cases ht; cases ht'; exact .num
  | transpose | typ => cases ht; cases ht'; exact Fits.refl _
  | list | map => cases ht
  | to w =>
    have key : ∀ {l : List V} {T : Ty}, toType x w l = some T → T = w := by
      intro l T h
      unfold toType at h
      split at h
      · split at h
        · cases h; rfl
        · cases h
      · cases h
    rw [key ht, key ht']; exact Fits.refl _
  | matchkeys =>
    simp only [Fn.spec, matchkeysType] at ht ht'
    split at ht
    · obtain ⟨v', t, rfl, hv, h⟩ := h.cons
      split at ht'
      · next he =>
        cases he
        obtain ⟨_, _, rfl⟩ := Option.map_eq_some_iff.1 ht
        obtain ⟨_, _, rfl⟩ := Option.map_eq_some_iff.1 ht'
        exact hv.ty
      · cases ht'
    · cases ht
  | one =>
    simp only [Fn.spec] at ht ht'
    cases args with
    | nil => cases ht
    | cons v l =>
    cases l with
    | cons => cases ht
    | nil =>
    obtain ⟨v', t, rfl, hv, h⟩ := h.cons
    rw [h.nil] at ht'
    have hvt := hv.ty
    simp only [oneType] at ht ht'
    generalize v.ty = tv at hvt ht
    generalize v'.ty = tv' at hvt ht'
    cases hvt with
    | list h => cases ht; cases ht'; exact h
    | set h => cases ht; cases ht'; exact h
    | tup len each =>
      rename_i gs ws
      match gs, ws, len, each, ht, ht' with
      | _, [], _, _, ht, _ => cases ht; exact .any _
      | [g], [w], _, each, ht, ht' => cases ht; cases ht'; exact each 0 _ _ rfl rfl
      | _, _ :: _ :: _, _, _, ht, _ => cases ht
    | _ => cases ht
  | lookup =>
    simp only [Fn.spec] at ht ht'
    cases args with
    | nil => cases ht
    | cons m l =>
    cases l with
    | nil => cases ht
    | cons k rest =>
    obtain ⟨m', t, rfl, hm, h⟩ := h.cons
    obtain ⟨k', rest', rfl, hk, hr⟩ := h.cons
    simp only [lookupType] at ht ht'
    have hmt := hm.ty
    split at ht
    · split at ht'
      · generalize m.ty = tm at hmt ht
        generalize m'.ty = tm' at hmt ht'
        cases hmt with
        | obj names each =>
          rename_i gs ws
          dsimp only at ht ht'
          cases k with
          | unk => cases ht; exact .any _
          | str s =>
            cases hk
            dsimp only at ht ht'
            rcases get_names gs ws names s with ⟨h1, h2⟩ | ⟨i, g, w, h1, h2, h3, h4⟩
            · rw [h2] at ht
              rw [h1] at ht'
              dsimp only at ht ht'
              split at ht
              · obtain ⟨d', t, rfl, hd, h⟩ := hr.cons
                rw [h.nil] at ht'
                cases ht; cases ht'
                exact hd.ty
              · cases ht
            · rw [h4] at ht
              rw [h3] at ht'
              cases ht; cases ht'
              exact each i g w h1 h2
          | _ => cases ht
        | map he =>
          dsimp only at ht ht'
          have key : ∀ {e T : Ty} {l : List V}, (match l with | [d] => (x.conv d e).map fun _ => e | _ => some e) = some T → T = e := by
            intro e T l h
            split at h
            · obtain ⟨_, _, h⟩ := Option.map_eq_some_iff.1 h; exact h.symm
            · cases h; rfl
          rw [key ht, key ht']; exact he
        | _ => cases ht
      · cases ht'
    · cases ht

/-! ## Results -/

/-- `Becomes` for elements. -/
theorem BecomesAll.mk {l l' : List V} (len : l.length = l'.length)
    (each : ∀ (i : Nat) (v v' : V), l[i]? = some v → l'[i]? = some v' → Becomes v v') : BecomesAll l l' := ⟨len, each⟩

theorem length_stable (x : Ext) {args args' : List V} (h : BecomesAll args args') {T T' : Ty} {v v' : V}
    (hok : OkV .length .num v') (hi : lengthImpl x args T = some v) (hi' : lengthImpl x args' T' = some v') : Becomes v v' := by
  have hunk : Becomes (.unk .num) v' := .unk hok.2.1
  cases args with
  | nil => cases hi
  | cons a l =>
  cases l with
  | cons => cases hi
  | nil =>
  obtain ⟨a', t, rfl, ha, h⟩ := h.cons
  rw [h.nil] at hi'
  have same : a' = a → Becomes v v' := by
    rintro rfl
    have : some v = some v' := hi.symm.trans hi'
    cases this
    exact .refl _
  cases ha with
  | null | bool | num | str | typ => exact same rfl
  | unk hty =>
    rename_i t
    simp only [lengthImpl] at hi hi'
    cases t with
    | tup es =>
      generalize a'.ty = t' at hty hi'
      cases hty with
      | tup len each => cases hi; cases hi'; rw [len]; exact .refl _
    | obj es =>
      generalize a'.ty = t' at hty hi'
      cases hty with
      | obj names each =>
        have := congrArg List.length names
        simp only [List.length_map] at this
        cases hi; cases hi'; rw [this]; exact .refl _
    | bool | num | typ => cases hi
    | _ => cases hi; exact hunk
  | list ty sm len each => cases hi; cases hi'; rw [len]; exact .refl _
  | map ty sm names each =>
    have := congrArg List.length names
    simp only [List.length_map] at this
    cases hi; cases hi'; rw [this]; exact .refl _
  | tup len each =>
    simp only [lengthImpl, V.ty, tysL_eq, List.length_map] at hi hi'
    cases hi; cases hi'; rw [len]; exact .refl _
  | obj names each =>
    have := congrArg List.length names
    simp only [List.length_map] at this
    simp only [lengthImpl, V.ty, tysO_eq, List.length_map] at hi hi'
    cases hi; cases hi'; rw [this]; exact .refl _
  | set ty sm len each members fewer =>
    rename_i e e' l l' l''
    simp only [lengthImpl, V.ty] at hi
    split at hi
    · next hc =>
      rcases Bool.or_eq_true_iff.1 hc with h1 | h1
      · have h1 : l.length = 1 := of_decide_eq_true h1
        have h2 : l'.length = 1 := by
          cases l' with
          | nil =>
            have : l''.length = 1 := len ▸ h1
            cases l'' with
            | nil => cases this
            | cons w _ => exact absurd ((members w).2 List.mem_cons_self) (by intro h; cases h)
          | cons w t => simp only [List.length_cons] at fewer ⊢; omega
        simp only [lengthImpl, V.ty, h2] at hi'
        cases hi; cases hi'; rw [h1]; exact .refl _
      · have := sm ((wholeL_iff l).1 h1)
        exact same (by rw [this.1, this.2])
    · cases hi; exact hunk

theorem boolK_stable {v v' : V} (h : Becomes v v') (hu : boolK v ≠ .unk) : boolK v' = boolK v := by
  cases h <;> first | rfl | exact absurd rfl hu

theorem allLoop_stable (l : List V) : ∀ {l' : List V} {r x : Bool}, BecomesAll l l' → Funcs.allTrueLoop r (l.map boolK) = .val x →
    Funcs.allTrueLoop r (l'.map boolK) = .val x := by
  induction l with
  | nil => intro l' r x h hl; rw [h.nil]; exact hl
  | cons v l ih =>
    intro l' r x h hl
    obtain ⟨v', t, rfl, hv, ht⟩ := h.cons
    rw [List.map_cons] at hl ⊢
    have hu : boolK v ≠ .unk := by intro hu; rw [hu] at hl; cases hl
    rw [boolK_stable hv hu]
    cases hk : boolK v with
    | unk => exact absurd hk hu
    | null => rw [hk] at hl; exact hl
    | val y =>
      rw [hk] at hl
      simp only [Funcs.allTrueLoop] at hl ⊢
      split
      · next hc => rw [if_pos hc] at hl; exact hl
      · next hc => rw [if_neg hc] at hl; exact ih ht hl

theorem anyLoop_true (l : List (K Bool)) : ∀ {r x : Bool}, Funcs.anyTrueLoop r true l = .val x → x = true := by
  induction l with
  | nil => intro r x h; cases h
  | cons k l ih =>
    intro r x h
    cases k with
    | unk => exact ih h
    | null => exact ih h
    | val y =>
      simp only [Funcs.anyTrueLoop] at h
      split at h
      · cases h; rfl
      · exact ih h

theorem anyLoop_stable (l : List V) : ∀ {l' : List V} {r u u' x : Bool}, BecomesAll l l' → (u' = true → u = true) →
    Funcs.anyTrueLoop r u (l.map boolK) = .val x → Funcs.anyTrueLoop r u' (l'.map boolK) = .val x := by
  induction l with
  | nil =>
    intro l' r u u' x h hu hl
    rw [h.nil]
    cases u with
    | true => cases hl
    | false => rw [show u' = false from Bool.eq_false_iff.2 fun h => by cases hu h]; exact hl
  | cons v l ih =>
    intro l' r u u' x h hu hl
    obtain ⟨v', t, rfl, hv, ht⟩ := h.cons
    rw [List.map_cons] at hl ⊢
    cases hk : boolK v with
    | unk =>
      rw [hk] at hl
      have hl : Funcs.anyTrueLoop r true (l.map boolK) = .val x := hl
      have hx := anyLoop_true _ hl
      cases hk' : boolK v' with
      | unk => exact ih ht (fun _ => rfl) hl
      | null => exact ih ht (fun _ => rfl) hl
      | val y =>
        simp only [Funcs.anyTrueLoop]
        split
        · rw [hx]
        · next hc =>
          have hy : (r || y) = r := by cases r <;> cases y <;> simp_all
          rw [hy]; exact ih ht (fun _ => rfl) hl
    | null =>
      rw [boolK_stable hv (by rw [hk]; intro h; cases h), hk]
      rw [hk] at hl
      exact ih ht hu hl
    | val y =>
      rw [boolK_stable hv (by rw [hk]; intro h; cases h), hk]
      rw [hk] at hl
      simp only [Funcs.anyTrueLoop] at hl ⊢
      split
      · next hc => rw [if_pos hc] at hl; exact hl
      · next hc => rw [if_neg hc] at hl; exact ih ht hu hl

theorem allTrue_stable {args args' : List V} (h : BecomesAll args args') {v v' : V} (hok : OkV .allTrue .bool v')
    (hi : allTrueImpl args .bool = some v) (hi' : allTrueImpl args' .bool = some v') : Becomes v v' := by
  unfold allTrueImpl at hi
  split at hi
  · obtain ⟨a', t, rfl, ha, h⟩ := h.cons
    rw [h.nil] at hi'
    cases ha with
    | list ty sm len each =>
    rcases ofRes_cases hi with ⟨_, rfl⟩ | ⟨h1, _⟩ | ⟨r, h1, rfl⟩
    · exact .unk hok.2.1
    · exact absurd (by injection h1) (allTrue_ne _ true)
    · simp only [allTrueImpl] at hi'
      rw [allLoop_stable _ (.mk len each) (by injection h1)] at hi'
      cases hi'; exact .refl _
  · cases hi

theorem anyTrue_stable {args args' : List V} (h : BecomesAll args args') {v v' : V} (hok : OkV .anyTrue .bool v')
    (hi : anyTrueImpl args .bool = some v) (hi' : anyTrueImpl args' .bool = some v') : Becomes v v' := by
  unfold anyTrueImpl at hi
  split at hi
  · obtain ⟨a', t, rfl, ha, h⟩ := h.cons
    rw [h.nil] at hi'
    cases ha with
    | list ty sm len each =>
    rcases ofRes_cases hi with ⟨_, rfl⟩ | ⟨h1, _⟩ | ⟨r, h1, rfl⟩
    · exact .unk hok.2.1
    · exact absurd (by injection h1) (anyTrue_ne _ false false)
    · simp only [anyTrueImpl] at hi'
      rw [anyLoop_stable _ (.mk len each) (fun h => h) (by injection h1)] at hi'
      cases hi'; exact .refl _
  · cases hi

theorem isEmpty_stable {T : Ty} {r r' : V} (h : Becomes r r') (hu : r.known = true) : isEmpty T r' = isEmpty T r := by
  cases h <;> first | rfl | (cases hu; done) | (cases T <;> rfl)

theorem coalesce_stable {x : Ext} (hs : x.Stable) (args : List V) : ∀ {args' : List V} {T : Ty} {v v' : V}, BecomesAll args args' →
    (∀ a ∈ args, Good a) → (∀ a ∈ args', Good a) → (∀ a ∈ args, x.conv a T ≠ none) → (∀ a ∈ args', x.conv a T ≠ none) →
    OkV .coalesce T v' → coalesceImpl x args T = some v → coalesceImpl x args' T = some v' → Becomes v v' := by
  induction args with
  | nil => intro args' T v v' _ _ _ _ _ _ hi; cases hi
  | cons a l ih =>
    intro args' T v v' h hg hg' hc hc' hok hi hi'
    obtain ⟨a', l', rfl, ha, h⟩ := h.cons
    cases hr : x.conv a T with
    | none => exact absurd hr (hc a List.mem_cons_self)
    | some r =>
    cases hr' : x.conv a' T with
    | none => exact absurd hr' (hc' a' List.mem_cons_self)
    | some r' =>
    have hb := hs.conv a a' T r r' (hg a List.mem_cons_self) (hg' a' List.mem_cons_self) ha hr hr'
    have next : coalesceImpl x l T = some v → coalesceImpl x l' T = some v' → Becomes v v' := fun h1 h2 =>
      ih h (fun a h => hg a (List.mem_cons_of_mem _ h)) (fun a h => hg' a (List.mem_cons_of_mem _ h))
        (fun a h => hc a (List.mem_cons_of_mem _ h)) (fun a h => hc' a (List.mem_cons_of_mem _ h)) hok h1 h2
    have hval : ∀ {r : V} {a : V}, r.known = true → r.isNull = false → x.conv a T = some r → converted x T a = .val r := by
      intro r a h1 h2 h3
      unfold converted
      rw [h3]
      cases r <;> first | rfl | (cases h1; done) | (cases h2; done)
    by_cases hk : r.known = true
    · by_cases hn : r.isNull = true
      · have hcv : converted x T a = .null := by
          unfold converted; rw [hr]; cases r <;> first | rfl | (cases hn; done)
        have hcv' : converted x T a' = .null := by
          unfold converted; rw [hr']
          cases hb <;> first | rfl | (cases hn; done)
        simp only [coalesceImpl, List.map_cons, hcv, Funcs.coalesce] at hi
        simp only [coalesceImpl, List.map_cons, hcv', Funcs.coalesce] at hi'
        exact next hi hi'
      · have hn : r.isNull = false := Bool.eq_false_iff.2 hn
        have hn' : r'.isNull = false := by cases hb <;> first | rfl | (cases hn; done) | (cases hk; done)
        have he := isEmpty_stable (T := T) hb hk
        simp only [coalesceImpl, List.map_cons, hval hk hn hr, Funcs.coalesce] at hi
        simp only [coalesceImpl, List.map_cons, hval (hb.known hk) hn' hr', Funcs.coalesce, he] at hi'
        split at hi
        · next hem => rw [if_pos hem] at hi'; exact next hi hi'
        · next hem =>
          rw [if_neg hem] at hi'
          cases hi; cases hi'
          exact hb
    · have hcv : converted x T a = .unk := by
        unfold converted; rw [hr]; cases r <;> first | rfl | exact absurd rfl hk
      simp only [coalesceImpl, List.map_cons, hcv, Funcs.coalesce] at hi
      cases hi
      exact .unk hok.2.1

theorem eqK_stable {x : Ext} (hs : x.Stable) {a a' c c' : V} (ha : Becomes a a') (hc : Becomes c c') {r : Bool}
    (h : eqK x a c = .ok (.val r)) : eqK x a' c' = .ok (.val r) := by
  unfold eqK at h
  split at h
  · cases h
  · next q hq => cases h; unfold eqK; rw [hs.equal a a' c c' r ha hc hq]
  · cases h
  · cases h

theorem indexLoop_stable {x : Ext} (hs : x.Stable) {w w' : V} (hw : Becomes w w') (l : List V) : ∀ {l' : List V} {i n : Nat},
    BecomesAll l l' → Funcs.indexLoop (eqK x) w i l = .ok (.val n) → Funcs.indexLoop (eqK x) w' i l' = .ok (.val n) := by
  induction l with
  | nil => intro l' i n _ h; cases h
  | cons a l ih =>
    intro l' i n h hl
    obtain ⟨a', t, rfl, ha, h⟩ := h.cons
    simp only [Funcs.indexLoop] at hl ⊢
    cases he : eqK x a w with
    | error => rw [he] at hl; cases hl
    | ok k =>
      rw [he] at hl
      cases k with
      | unk => cases hl
      | null => cases hl
      | val r =>
        rw [eqK_stable hs ha hw he]
        cases r with
        | true => exact hl
        | false => exact ih h hl

theorem index_stable {x : Ext} (hs : x.Stable) {args args' : List V} (h : BecomesAll args args') {v v' : V}
    (hok : OkV .index .num v') (hi : indexImpl x args .num = some v) (hi' : indexImpl x args' .num = some v') : Becomes v v' := by
  have key : ∀ {l l' : List V} {w w' : V}, Becomes w w' → BecomesAll l l' →
      (if l.length = 0 then none else ofRes .num int (Funcs.indexLoop (eqK x) w 0 l)) = some v →
      (if l'.length = 0 then none else ofRes .num int (Funcs.indexLoop (eqK x) w' 0 l')) = some v' → Becomes v v' := by
    intro l l' w w' hw hl h1 h2
    rw [← hl.1] at h2
    split at h1
    · cases h1
    · next hn =>
      rw [if_neg hn] at h2
      rcases ofRes_cases h1 with ⟨_, rfl⟩ | ⟨h3, _⟩ | ⟨n, h3, rfl⟩
      · exact .unk hok.2.1
      · exact absurd h3 (index_ne _ _ _ _)
      · rw [indexLoop_stable hs hw l hl h3] at h2
        cases h2; exact .refl _
  unfold indexImpl at hi
  split at hi
  · obtain ⟨a', t, rfl, ha, h⟩ := h.cons
    obtain ⟨w', t, rfl, hw, h⟩ := h.cons
    rw [h.nil] at hi'
    cases ha with
    | list ty sm len each => exact key hw (.mk len each) hi hi'
  · obtain ⟨a', t, rfl, ha, h⟩ := h.cons
    obtain ⟨w', t, rfl, hw, h⟩ := h.cons
    rw [h.nil] at hi'
    cases ha with
    | tup len each => exact key hw (.mk len each) hi hi'
  · cases hi

theorem lookup_map_type {x : Ext} {e : Ty} {m : List (Bytes × V)} {k : V} {rest : List V} {T : Ty}
    (h : lookupType x (.map e m :: k :: rest) = some T) : T = e := by
  simp only [lookupType, V.ty] at h
  split at h
  · split at h
    · obtain ⟨_, _, h⟩ := Option.map_eq_some_iff.1 h; exact h.symm
    · cases h; rfl
  · cases h

theorem lookup_stable {x : Ext} (hx : x.Ok) (hs : x.Stable) {args args' : List V} (h : BecomesAll args args')
    (hg : ∀ a ∈ args, Good a) (hg' : ∀ a ∈ args', Good a) {T T' : Ty} {v v' : V}
    (hst : ∀ m m', args[0]? = some m → args'[0]? = some m' → (∃ e, m.ty = .map e) → m'.ty = m.ty)
    (ht : lookupType x args = some T) (ht' : lookupType x args' = some T')
    (hi : lookupImpl x args T = some v) (hi' : lookupImpl x args' T' = some v') : Becomes v v' := by
  unfold lookupImpl at hi
  split at hi
  · next t m s rest =>
    obtain ⟨a', t1, rfl, ha, h⟩ := h.cons
    obtain ⟨k', rest', rfl, hk, hr⟩ := h.cons
    cases hk
    cases ha with
    | obj names each =>
    rename_i m'
    simp only [lookupImpl] at hi'
    rcases get_names m m' names s with ⟨h1, h2⟩ | ⟨i, g, w, h1, h2, h3, h4⟩
    · rw [h1] at hi
      rw [h2] at hi'
      simp only [lookupType, V.ty, get_tys, h1, h2, Option.map_none] at ht ht'
      dsimp only at hi hi'
      unfold lookupDefault at hi
      split at hi
      · obtain ⟨d', t2, rfl, hd, h⟩ := hr.cons
        rw [h.nil] at ht' hi'
        cases ht; cases ht'
        dsimp only [lookupDefault] at hi hi'
        rw [hx.self] at hi hi'
        cases hi; cases hi'
        exact hd
      · cases hi
    · rw [h3] at hi
      rw [h4] at hi'
      cases hi; cases hi'
      exact each i g w h1 h2
  · next t e m s rest =>
    obtain ⟨a', t1, rfl, ha, h⟩ := h.cons
    obtain ⟨k', rest', rfl, hk, hr⟩ := h.cons
    replace hst := hst _ _ rfl rfl ⟨e, rfl⟩
    cases hk
    cases ha with
    | map ty sm names each =>
    rename_i e' m'
    cases hst
    simp only [lookupImpl] at hi'
    rcases get_names m m' names s with ⟨h1, h2⟩ | ⟨i, g, w, h1, h2, h3, h4⟩
    · rw [h1] at hi
      rw [h2] at hi'
      obtain rfl := lookup_map_type ht
      obtain rfl := lookup_map_type ht'
      dsimp only at hi hi'
      unfold lookupDefault at hi
      split at hi
      · obtain ⟨d', t2, rfl, hd, h⟩ := hr.cons
        rw [h.nil] at hi' hg'
        exact hs.conv _ d' _ v v' (hg _ (by simp)) (hg' _ (by simp)) hd hi hi'
      · cases hi
    · rw [h3] at hi
      rw [h4] at hi'
      cases hi; cases hi'
      exact each i g w h1 h2
  · cases hi

theorem matchkeys_stable {x : Ext} (hs : x.Stable) {args args' : List V} (h : BecomesAll args args')
    (hg : ∀ a ∈ args, Good a) (hg' : ∀ a ∈ args', Good a) {T : Ty} {v v' : V}
    (hty : args'.map V.ty = args.map V.ty) (hse : ∀ s, args[2]? = some s → ¬ Open s)
    (hok : OkV .matchkeys T v') (hi : matchkeysImpl x args T = some v) (hi' : matchkeysImpl x args' T = some v') : Becomes v v' := by
  unfold matchkeysImpl at hi
  split at hi
  · next e0 values ek keys es search e =>
    have hse := hse _ rfl
    obtain ⟨a1, t, rfl, h1, h⟩ := h.cons
    obtain ⟨a2, t, rfl, h2, h⟩ := h.cons
    obtain ⟨a3, t, rfl, h3, h⟩ := h.cons
    obtain rfl := h.nil
    obtain rfl := h3.eq hse
    cases h1 with
    | list ty1 sm1 len1 each1 =>
    rename_i e0' values'
    cases hk : h2 with
    | list ty2 sm2 len2 each2 =>
    rename_i ek' keys' _
    clear hk
    simp only [List.map_cons, V.ty, List.cons.injEq, Ty.list.injEq] at hty
    obtain ⟨rfl, rfl, _⟩ := hty
    simp only [matchkeysImpl] at hi'
    rw [← len1, ← len2] at hi'
    split at hi
    · cases hi
    next hl =>
    rw [if_neg hl] at hi'
    split at hi
    · cases hi
    next ty hu =>
    rw [hu] at hi'
    dsimp only at hi'
    split at hi
    · cases hi
    next sv hsv =>
    rw [hsv] at hi'
    dsimp only at hi'
    split at hi
    · cases hi
    next ss hss =>
    rw [hss] at hi'
    dsimp only at hi'
    split at hi
    · next hz => rw [if_pos hz] at hi'; cases hi; cases hi'; exact .refl _
    next hz =>
    rw [if_neg hz] at hi'
    split at hi
    · cases hi; exact .unk hok.2.1
    next hw =>
    have hw : wholeL values = true := by simpa using hw
    have hvv : values' = values := by
      have := Becomes.eq (Becomes.list ty1 sm1 len1 each1) (by
        intro ho
        cases ho with
        | list hm ho => exact (wholeL_iff values).1 hw _ hm ho)
      cases this; rfl
    rw [hvv, hw, Bool.not_true, if_neg Bool.false_ne_true] at hi'
    split at hi
    · cases hi
    next kv hkv =>
    split at hi
    · cases hi; exact .unk hok.2.1
    next hkw =>
    have hkw : kv.whole = true := by simpa using hkw
    cases hkv' : x.conv (.list ek' keys') ty with
    | none => rw [hkv'] at hi'; cases hi'
    | some kv' =>
      have hb := hs.conv _ _ ty kv kv' (hg _ (by simp)) (hg' _ (by simp)) h2 hkv hkv'
      obtain rfl := hb.eq ((whole_iff kv).1 hkw)
      rw [hkv'] at hi'
      dsimp only at hi'
      rw [hkw, Bool.not_true, if_neg Bool.false_ne_true] at hi'
      have : some v = some v' := hi.symm.trans hi'
      cases this
      exact .refl _
  · cases hi

theorem one_stable {args args' : List V} (h : BecomesAll args args') {T T' : Ty} {v v' : V}
    (ht : oneType args = some T) (ht' : oneType args' = some T') (hT : Fits T' T)
    (hok : OkV .one T' v') (hi : oneImpl args T = some v) (hi' : oneImpl args' T' = some v') : Becomes v v' := by
  unfold oneImpl at hi
  split at hi
  · next t e l =>
    obtain ⟨a', t1, rfl, ha, h⟩ := h.cons
    rw [h.nil] at hi' ht'
    cases ha with
    | list ty sm len each =>
    rename_i e' l'
    cases ht; cases ht'
    split at hi
    · have hl : l' = [] := List.length_eq_zero_iff.1 len.symm
      subst hl
      obtain rfl := sm fun v h => by cases h
      cases hi; cases hi'; exact .refl _
    · obtain ⟨w, t2, rfl, hw, h⟩ := (BecomesAll.mk len each).cons
      rw [h.nil] at hi'
      cases hi; cases hi'; exact hw
    · cases hi
  · next t e l =>
    obtain ⟨a', t1, rfl, ha, h⟩ := h.cons
    rw [h.nil] at hi' ht'
    cases ha with
    | set ty sm len each members fewer =>
    rename_i e' l' l''
    cases ht; cases ht'
    split at hi
    · split at hi
      · obtain ⟨rfl, rfl⟩ := sm fun v h => by cases h
        cases hi; cases hi'; exact .refl _
      · next w0 _ =>
        obtain ⟨w, t2, rfl, hw, h⟩ := (BecomesAll.mk len each).cons
        obtain rfl := h.nil
        have hl : l' = [w] := by
          match l', members, fewer with
          | [], members, _ => exact absurd ((members w).2 List.mem_cons_self) (by intro h; cases h)
          | [c], members, _ => rw [List.mem_singleton.1 ((members c).1 List.mem_cons_self)]
          | _ :: _ :: _, _, fewer => simp at fewer
        subst hl
        cases hi; cases hi'; exact hw
      · cases hi
    · cases hi; exact .unk (hok.2.1.trans hT)
  · next t l =>
    obtain ⟨a', t1, rfl, ha, h⟩ := h.cons
    rw [h.nil] at hi' ht'
    cases ha with
    | tup len each =>
    rename_i l'
    split at hi
    · have hl : l' = [] := List.length_eq_zero_iff.1 len.symm
      subst hl
      cases ht; cases ht'; cases hi; cases hi'; exact .refl _
    · obtain ⟨w, t2, rfl, hw, h⟩ := (BecomesAll.mk len each).cons
      rw [h.nil] at hi'
      cases hi; cases hi'; exact hw
    · cases hi
  · cases hi

theorem sumList_open {x : Ext} {l : List V} {v : V} (h : sumList x l = some v) : wholeL l = true ∨ v = .unk .num := by
  unfold sumList at h
  split at h
  · cases h
  · split at h
    · cases h; exact .inr rfl
    · next hn => exact .inl (by simpa using hn)

theorem sum_stable (x : Ext) {args args' : List V} (h : BecomesAll args args') {v v' : V}
    (hok : OkV .sum .num v') (hi : sumImpl x args .num = some v) (hi' : sumImpl x args' .num = some v') : Becomes v v' := by
  have key : ∀ {a : V} {l : List V}, args = [a] → (Open a → ∃ v ∈ l, Open v) → sumList x l = some v → Becomes v v' := by
    rintro a l rfl ho hl
    rcases sumList_open hl with hw | rfl
    · obtain ⟨a', t1, rfl, ha, h⟩ := h.cons
      rw [h.nil, ha.eq fun h => by obtain ⟨v, hm, hv⟩ := ho h; exact (wholeL_iff l).1 hw v hm hv] at hi'
      have : some v = some v' := hi.symm.trans hi'
      cases this
      exact .refl _
    · exact .unk hok.2.1
  have hi0 := hi
  unfold sumImpl at hi0
  split at hi0
  · exact key rfl (fun h => by cases h with | list hm ho => exact ⟨_, hm, ho⟩) hi0
  · exact key rfl (fun h => by cases h with | set hm ho => exact ⟨_, hm, ho⟩) hi0
  · exact key rfl (fun h => by cases h with | tup hm ho => exact ⟨_, hm, ho⟩) hi0
  · cases hi0

theorem transpose_stable {args args' : List V} (h : BecomesAll args args') {T : Ty} {v v' : V}
    (hok : OkV .transpose T v') (hi : transposeImpl args T = some v) (hi' : transposeImpl args' T = some v') : Becomes v v' := by
  have hi0 := hi
  unfold transposeImpl at hi0
  split at hi0
  · next t e m =>
    split at hi0
    · cases hi0; exact .unk hok.2.1
    · next hn =>
      have hw : wholeO m = true := by simpa using hn
      obtain ⟨a', t1, rfl, ha, h⟩ := h.cons
      rw [h.nil, ha.eq fun h => by cases h with | map hm ho => exact (wholeO_iff m).1 hw _ hm ho] at hi'
      have : some v = some v' := hi.symm.trans hi'
      cases this
      exact .refl _
  · cases hi0

theorem impl_stable {x : Ext} (hx : x.Ok) (hs : x.Stable) (f : Fn) {args args' : List V} (h : BecomesAll args args')
    (hg : ∀ a ∈ args, Good a) (hg' : ∀ a ∈ args', Good a) {T T' : Ty} {v v' : V}
    (hst : Steady x f T T' args args') (hT : Fits T' T)
    (ht : (f.spec x).type args = some T) (ht' : (f.spec x).type args' = some T')
    (hi : (f.spec x).impl args T = some v) (hi' : (f.spec x).impl args' T' = some v') : Becomes v v' := by
  have hok := impl_ok hx f hg' ht' hi'
  cases f with
  | length =>
    have hT' : T' = .num := by
      have := length_ok x ht' hi'
      simp only [Fn.spec, lengthType] at ht'
      split at ht'
      · split at ht' <;> cases ht' <;> rfl
      · cases ht'
    exact length_stable x h (hT' ▸ hok) hi hi'
  | allTrue => cases ht; cases ht'; exact allTrue_stable h hok hi hi'
  | anyTrue => cases ht; cases ht'; exact anyTrue_stable h hok hi hi'
  | coalesce =>
    obtain ⟨rfl, h1, h2⟩ := hst
    exact coalesce_stable hs args h hg hg' h1 h2 hok hi hi'
  | index => cases ht; cases ht'; exact index_stable hs h hok hi hi'
  | lookup => exact lookup_stable hx hs h hg hg' hst ht ht' hi hi'
  | matchkeys =>
    have hTT : T' = T := by
      have hty := hst.1
      simp only [Fn.spec, matchkeysType] at ht ht'
      split at ht
      · split at ht'
        · obtain ⟨_, _, rfl⟩ := Option.map_eq_some_iff.1 ht
          obtain ⟨_, _, rfl⟩ := Option.map_eq_some_iff.1 ht'
          simp only [List.map_cons, List.cons.injEq] at hty
          exact hty.1
        · cases ht'
      · cases ht
    subst hTT
    exact matchkeys_stable hs h hg hg' hst.1 hst.2 hok hi hi'
  | one => exact one_stable h ht ht' hT hok hi hi'
  | sum => cases ht; cases ht'; exact sum_stable x h hok hi hi'
  | transpose => cases ht; cases ht'; exact transpose_stable h hok hi hi'
  | list => cases ht
  | map => cases ht
  | to w =>
    have key : ∀ {l : List V} {T : Ty}, toType x w l = some T → T = w := by
      intro l T h
      unfold toType at h
      split at h
      · split at h
        · cases h; rfl
        · cases h
      · cases h
    obtain rfl := key ht
    obtain rfl := key ht'
    simp only [Fn.spec, toImpl] at hi hi'
    split at hi
    · obtain ⟨a', t1, rfl, ha, h⟩ := h.cons
      obtain rfl := h.nil
      exact hs.conv _ a' _ v v' (hg _ List.mem_cons_self) (hg' _ List.mem_cons_self) ha hi hi'
    · cases hi
  | typ =>
    simp only [Fn.spec, typImpl] at hi hi'
    split at hi
    · obtain ⟨a', t1, rfl, ha, h⟩ := h.cons
      obtain rfl := h.nil
      have hty : [a'].map V.ty = [_].map V.ty := hst
      simp only [List.map_cons, List.cons.injEq] at hty
      cases hi; cases hi'
      rw [hty.1]; exact .refl _
    · cases hi

theorem blocked_stable (args : List V) : ∀ {args' : List V} {ps : List Param} {var : Option Param}, BecomesAll args args' →
    blocked ps var args = false → blocked ps var args' = false := by
  have one : ∀ {p : Param} {v v' : V}, Becomes v v' → (!v.known && !p.allowUnk) = false → (!v'.known && !p.allowUnk) = false := by
    intro p v v' h hb
    cases hp : p.allowUnk with
    | true => simp
    | false =>
      rw [hp] at hb
      have : v.known = true := by simpa using hb
      simp [h.known this]
  induction args with
  | nil => intro args' ps var h _; rw [h.nil]; simp [blocked]
  | cons v l ih =>
    intro args' ps var h hb
    obtain ⟨v', t, rfl, hv, ht⟩ := h.cons
    cases ps with
    | cons p ps =>
      simp only [blocked, Bool.or_eq_false_iff] at hb ⊢
      exact ⟨one hv hb.1, ih ht hb.2⟩
    | nil =>
      cases var with
      | none => simp [blocked]
      | some p =>
        simp only [blocked, Bool.or_eq_false_iff] at hb ⊢
        exact ⟨one hv hb.1, ih ht hb.2⟩

theorem returnType_stable (x : Ext) (f : Fn) {args args' : List V} (h : BecomesAll args args') {T T' : Ty} {d d' : Bool}
    (hf : f = .coalesce → T' = T) (hr : returnType (f.spec x) args = some (T, d)) (hr' : returnType (f.spec x) args' = some (T', d')) :
    Fits T' T ∧ (d = false → d' = false) := by
  obtain ⟨_, ⟨_, rfl, rfl⟩ | ⟨hc, ht, rfl⟩⟩ := returnType_cases hr
  · exact ⟨.any _, fun h => by cases h⟩
  · obtain ⟨_, ⟨hc', _, _⟩ | ⟨_, ht', rfl⟩⟩ := returnType_cases hr'
    · exact absurd hc' (checkArgs_dyn args h hc)
    · refine ⟨?_, fun _ => rfl⟩
      by_cases hco : f = .coalesce
      · rw [hf hco]; exact Fits.refl _
      · exact type_stable x f hco h ht ht'

/-- What is known of a call that gives a value. -/
theorem call_cases {f : FSpec} {args : List V} {v : V} (h : call f args = .ok v) : ∃ T d, returnType f args = some (T, d) ∧
    (((d = true ∨ blocked f.params f.var args = true) ∧ v = .unk T) ∨
      (d = false ∧ blocked f.params f.var args = false ∧ f.impl args T = some v)) := by
  unfold call at h
  split at h
  · cases h
  · next T hr => cases h; exact ⟨T, true, hr, .inl ⟨.inl rfl, rfl⟩⟩
  · next T hr =>
    split at h
    · next hb => cases h; exact ⟨T, false, hr, .inl ⟨.inr hb, rfl⟩⟩
    · next hb =>
      split at h
      · cases h
      · next w hw =>
        split at h
        · split at h
          · cases h
          · cases h; exact ⟨T, false, hr, .inr ⟨rfl, Bool.eq_false_iff.2 hb, hw⟩⟩
        · cases h

theorem call_stable {x : Ext} (hx : x.Ok) (hs : x.Stable) (f : Fn) {args args' : List V} (h : BecomesAll args args')
    (hg : ∀ a ∈ args, Good a) (hg' : ∀ a ∈ args', Good a) {T T' : Ty} {d d' : Bool} {v v' : V}
    (hr : returnType (f.spec x) args = some (T, d)) (hr' : returnType (f.spec x) args' = some (T', d'))
    (hst : Steady x f T T' args args')
    (hc : call (f.spec x) args = .ok v) (hc' : call (f.spec x) args' = .ok v') : Becomes v v' := by
  obtain ⟨hT, hd⟩ := returnType_stable x f h (fun hf => by subst hf; exact hst.1) hr hr'
  obtain ⟨T1, d1, hr1, hcase⟩ := call_cases hc
  rw [hr] at hr1
  cases hr1
  rcases hcase with ⟨_, rfl⟩ | ⟨rfl, hb, hi⟩
  · rcases call_ok hx f hg' with he | ⟨w, T2, d2, h1, h2, hok⟩
    · rw [he] at hc'; cases hc'
    · rw [hc'] at h1; cases h1
      rw [hr'] at h2; cases h2
      exact .unk (hok.2.1.trans hT)
  · obtain ⟨T2, d2, hr2, hcase'⟩ := call_cases hc'
    rw [hr'] at hr2
    cases hr2
    obtain rfl := hd rfl
    rcases hcase' with ⟨hbad, _⟩ | ⟨_, _, hi'⟩
    · rcases hbad with hbad | hbad
      · cases hbad
      · rw [blocked_stable args h hb] at hbad; cases hbad
    · obtain ⟨_, ⟨_, _, hbad⟩ | ⟨_, ht, _⟩⟩ := returnType_cases hr
      · cases hbad
      obtain ⟨_, ⟨_, _, hbad⟩ | ⟨_, ht', _⟩⟩ := returnType_cases hr'
      · cases hbad
      exact impl_stable hx hs f h hg hg' hst hT ht ht' hi hi'

end Verif.Typed
