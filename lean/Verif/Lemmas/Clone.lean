import Verif.Spec.Clone
/-!
# Lemmas about sharing memory
-/
namespace Verif.Clone

mutual
theorem refs_zero : ∀ w, refs (zero w) = []
  | .scalar _ => rfl
  | .nil => rfl
  | .ref _ => rfl
  | .fields fs => by simp only [zero, refs, refsL_zero fs]
theorem refsL_zero : ∀ fs, refsL (zeroL fs) = []
  | [] => rfl
  | (n, e, w) :: r => by simp only [zeroL, refsL, refs_zero w, refsL_zero r, List.append_nil]
end

mutual
theorem isZero_zero : ∀ w, IsZero (zero w)
  | .scalar _ => rfl
  | .nil => trivial
  | .ref _ => trivial
  | .fields fs => isZeroL_zero fs
theorem isZeroL_zero : ∀ fs, IsZeroL (zeroL fs)
  | [] => trivial
  | (_, _, w) :: r => ⟨isZero_zero w, isZeroL_zero r⟩
end

theorem mem_refsL {a : Nat} : ∀ {fs : List (Bytes × Bool × W)}, a ∈ refsL fs ↔ ∃ f ∈ fs, a ∈ refs f.2.2
  | [] => by simp [refsL]
  | (n, e, w) :: r => by simp [refsL, mem_refsL (fs := r)]

/-- The references of a copy are those of the exported fields. -/
theorem mem_refs_copy {a : Nat} : ∀ {fs : List (Bytes × Bool × W)},
    a ∈ refsL (copyFields fs) ↔ ∃ f ∈ fs, f.2.1 = true ∧ a ∈ refs f.2.2
  | [] => by simp [copyFields, refsL]
  | (n, e, w) :: r => by
    cases e <;> simp [copyFields, refsL, mem_refs_copy (fs := r), refs_zero]

theorem Reach.trans {m : Mem} {a b c : Nat} (h : Reach m a b) (h' : Reach m b c) : Reach m a c := by
  induction h with
  | here => exact h'
  | step hw hb _ ih => exact .step hw hb (ih h')

theorem Reach.last {m : Mem} {a b c : Nat} {w : W} (h : Reach m a b) (hw : m[b]? = some w) (hc : c ∈ refs w) : Reach m a c :=
  h.trans (.step hw hc (.here c))

/-- Nothing that exists reaches beyond the memory. -/
theorem Reach.lt {m : Mem} (hs : Sound m) {a c : Nat} (h : Reach m a c) (ha : a < m.length) : c < m.length := by
  induction h with
  | here => exact ha
  | step hw hb _ ih => exact ih (hs _ (List.mem_of_getElem? hw) _ hb)

/-- A bigger memory: the old cells reach what they reached. -/
theorem Reach.grow {m : Mem} (hs : Sound m) (x : List W) {a c : Nat} (ha : a < m.length) :
    Reach (m ++ x) a c ↔ Reach m a c := by
  constructor
  · intro h
    induction h with
    | here a => exact .here a
    | step hw hb _ ih =>
      rw [List.getElem?_append_left ha] at hw
      exact .step hw hb (ih (hs _ (List.mem_of_getElem? hw) _ hb))
  · intro h
    induction h with
    | here a => exact .here a
    | @step a b c w hw hb _ ih =>
      refine .step (w := w) ?_ hb (ih (hs _ (List.mem_of_getElem? hw) _ hb))
      rw [List.getElem?_append_left ha, hw]

/-- What a program can do stays within a set of cells that is closed and holds what the program holds. -/
theorem acts_inside {R : Nat → Prop} {n : Nat} (hR : ∀ d, R d → d < n) {s t : Mem × List Nat} (h : Acts s t) :
    ∀ D : Nat → Prop, n ≤ s.1.length → (∀ k ∈ s.2, D k) → (∀ k, D k → ¬ R k) →
      (∀ k w, D k → s.1[k]? = some w → ∀ b ∈ refs w, D b) → ∀ d, R d → t.1[d]? = s.1[d]? := by
  induction h with
  | done s => intros; rfl
  | @more s t u hst htu ih =>
    intro D hn hk hD hc d hd
    cases hst with
    | @load m ks a b w ha hw hb =>
      refine ih D hn ?_ hD hc d hd
      intro k hk'
      rcases List.mem_cons.1 hk' with rfl | hk'
      · exact hc a w (hk a ha) hw k hb
      · exact hk k hk'
    | @new m ks w hw =>
      have hlt : d < m.length := Nat.lt_of_lt_of_le (hR d hd) hn
      rw [ih (fun k => D k ∨ k = m.length) ?_ ?_ ?_ ?_ d hd]
      · simp only [List.getElem?_append_left hlt]
      · simp only [List.length_append, List.length_singleton]; exact Nat.le_succ_of_le hn
      · intro k hk'
        rcases List.mem_cons.1 hk' with rfl | hk'
        · exact .inr rfl
        · exact .inl (hk k hk')
      · rintro k (hk' | rfl)
        · exact hD k hk'
        · intro hr; exact absurd (hR _ hr) (Nat.not_lt.2 hn)
      · rintro k w' hk' hw' b hb
        rcases Nat.lt_trichotomy k m.length with hlt' | heq | hgt
        · rw [List.getElem?_append_left hlt'] at hw'
          rcases hk' with hk' | rfl
          · exact .inl (hc k w' hk' hw' b hb)
          · exact absurd hlt' (Nat.lt_irrefl _)
        · subst heq
          simp only [List.getElem?_concat_length, Option.some.injEq] at hw'
          subst hw'
          exact .inl (hk b (hw b hb))
        · rw [List.getElem?_eq_none (by simp; omega)] at hw'
          exact absurd hw' (by simp)
    | @store m ks a w ha hw =>
      have hne : a ≠ d := by rintro rfl; exact hD a (hk a ha) hd
      rw [ih D (by simpa using hn) hk hD ?_ d hd]
      · simp only [List.getElem?_set_ne hne]
      · intro k w' hk' hw' b hb
        by_cases hka : a = k
        · subst hka
          rw [List.getElem?_set] at hw'
          split at hw'
          · split at hw'
            · cases hw'; exact hk b (hw b hb)
            · cases hw'
          · exact absurd rfl ‹_›
        · rw [List.getElem?_set_ne hka] at hw'
          exact hc k w' hk' hw' b hb

/-- A program can get hold of whatever its references reach. -/
theorem acts_reach {m : Mem} {a c : Nat} (h : Reach m a c) :
    ∀ ks, a ∈ ks → ∃ ks', Acts (m, ks) (m, ks') ∧ c ∈ ks' := by
  induction h with
  | here a => intro ks hk; exact ⟨ks, .done _, hk⟩
  | @step a b c w hw hb _ ih =>
    intro ks hk
    obtain ⟨ks', h', hc⟩ := ih (b :: ks) (List.mem_cons_self ..)
    exact ⟨ks', .more (.load hk hw hb) h', hc⟩

theorem Acts.snoc {s t u : Mem × List Nat} (h : Acts s t) (h' : Act t u) : Acts s u := by
  induction h with
  | done s => exact .more h' (.done _)
  | more a _ ih => exact .more a (ih h')

/-- There is a value without references that differs from a given one. -/
theorem other (w : W) : ∃ w', refs w' = [] ∧ w' ≠ w := by
  cases w with
  | scalar n => exact ⟨.nil, rfl, by simp⟩
  | nil => exact ⟨.scalar 0, rfl, by simp⟩
  | ref a => exact ⟨.nil, rfl, by simp⟩
  | fields fs => exact ⟨.nil, rfl, by simp⟩

/-- Independent are exactly the references that reach nothing in common. -/
theorem independent_iff {m : Mem} (hs : Sound m) {c a : Nat} (ha : a < m.length) :
    Independent m c a ↔ ∀ d, Reach m c d → ¬ Reach m a d := by
  constructor
  · intro h d hc had
    have hlt := had.lt hs ha
    obtain ⟨ks, hk, hd⟩ := acts_reach hc [c] (List.mem_singleton.2 rfl)
    obtain ⟨w', hw', hne⟩ := other m[d]
    have := h _ _ (hk.snoc (.store (w := w') hd (by rw [hw']; intro _ h; cases h))) d had
    rw [List.getElem?_set_self hlt, List.getElem?_eq_getElem hlt] at this
    exact hne (Option.some.inj this)
  · intro h m' ks hact d hd
    exact acts_inside (R := Reach m a) (n := m.length) (fun d hd => hd.lt hs ha) hact (Reach m c) (Nat.le_refl _)
      (by intro k hk; rw [List.mem_singleton.1 hk]; exact .here c) h
      (fun k w hk hw b hb => hk.last hw hb) d hd

theorem fills_old {lo : Nat} {m m' : Mem} (h : Fills lo m m') : lo ≤ m.length → ∀ d < lo, m'[d]? = m[d]? := by
  induction h with
  | done => intros; rfl
  | @new m m' w _ ih =>
    intro hlo d hd
    rw [ih (by simp; omega) d hd, List.getElem?_append_left (Nat.lt_of_lt_of_le hd hlo)]
  | @store m m' a w ha _ ih =>
    intro hlo d hd
    rw [ih (by simpa using hlo) d hd, List.getElem?_set_ne (by omega)]

theorem cloneHcl_eq {m m' : Mem} {a c : Nat} (h : cloneHcl m a = some (m', c)) :
    ∃ fs, m[a]? = some (.fields fs) ∧ m' = m ++ [.fields (copyFields fs)] ∧ c = m.length := by
  unfold cloneHcl at h
  split at h
  · next fs heq => cases h; exact ⟨fs, heq, rfl, rfl⟩
  · cases h

theorem cloneDet_eq {m m' : Mem} {a c : Nat} (h : cloneDet m a = some (m', c)) :
    ∃ w, m[a]? = some w ∧ m' = m ++ [zero w] ∧ c = m.length := by
  unfold cloneDet at h
  split at h
  · next w heq => cases h; exact ⟨w, heq, rfl, rfl⟩
  · cases h

theorem sound_snoc {m : Mem} (hs : Sound m) {w : W} (hw : ∀ b ∈ refs w, b < m.length) : Sound (m ++ [w]) := by
  intro v hv b hb
  rw [List.length_append, List.length_singleton]
  rcases List.mem_append.1 hv with hv | hv
  · exact Nat.lt_succ_of_lt (hs v hv b hb)
  · rw [List.mem_singleton.1 hv] at hb; exact Nat.lt_succ_of_lt (hw b hb)

/-- New cells without references. -/
theorem sound_new {m : Mem} (hs : Sound m) {xs : List W} (hx : ∀ w ∈ xs, refs w = []) : Sound (m ++ xs) := by
  intro v hv b hb
  rw [List.length_append]
  rcases List.mem_append.1 hv with hv | hv
  · have := hs v hv b hb; omega
  · rw [hx v hv] at hb; cases hb

/-- They reach themselves only. -/
theorem reach_new {m : Mem} {xs : List W} (hx : ∀ w ∈ xs, refs w = []) {c d : Nat} (hc : m.length ≤ c)
    (h : Reach (m ++ xs) c d) : d = c := by
  cases h with
  | here => rfl
  | step hv hb _ =>
    rw [List.getElem?_append_right hc] at hv
    rw [hx _ (List.mem_of_getElem? hv)] at hb; cases hb

/-- They are independent of all others, and all others are of them. -/
theorem indep_new {m : Mem} (hs : Sound m) {xs : List W} (hx : ∀ w ∈ xs, refs w = []) {c d : Nat} (hc : m.length ≤ c)
    (hc' : c < (m ++ xs).length) (hd : d < (m ++ xs).length) (hne : d ≠ c) :
    Independent (m ++ xs) c d ∧ Independent (m ++ xs) d c := by
  have hs' := sound_new hs hx
  have key : ∀ e, Reach (m ++ xs) c e → ¬ Reach (m ++ xs) d e := by
    intro e he hde
    rw [reach_new hx hc he] at hde
    by_cases hdm : d < m.length
    · rw [Reach.grow hs xs hdm] at hde
      have := hde.lt hs hdm
      omega
    · exact hne (reach_new hx (Nat.le_of_not_lt hdm) hde).symm
  exact ⟨(independent_iff hs' hd).2 key, (independent_iff hs' hc').2 fun e h1 h2 => key e h2 h1⟩

/-- Several copies of one template that has the value `w₀`. -/
theorem cloneMany_new {clone : Mem → Nat → Option (Mem × Nat)} {a : Nat} {w₀ : W}
    (hcl : ∀ m m' c, m[a]? = some w₀ → clone m a = some (m', c) → c = m.length ∧ ∃ w, refs w = [] ∧ m' = m ++ [w]) :
    ∀ n m m' cs, m[a]? = some w₀ → cloneMany clone a n m = some (m', cs) →
      ∃ xs : List W, m' = m ++ xs ∧ (∀ w ∈ xs, refs w = []) ∧ cs.length = n ∧ cs.Nodup ∧ ∀ c ∈ cs, m.length ≤ c ∧ c < m'.length
  | 0, m, m', cs, _, h => by
    simp only [cloneMany, Option.some.injEq, Prod.mk.injEq] at h
    obtain ⟨rfl, rfl⟩ := h
    exact ⟨[], by simp, by simp, rfl, List.nodup_nil, by simp⟩
  | n + 1, m, m', cs, ha, h => by
    simp only [cloneMany] at h
    split at h
    · cases h
    · next m₁ c heq =>
      obtain ⟨rfl, w, hw, rfl⟩ := hcl _ _ _ ha heq
      have hlt : a < m.length := (List.getElem?_eq_some_iff.1 ha).1
      cases h2 : cloneMany clone a n (m ++ [w]) with
      | none => rw [h2] at h; cases h
      | some p =>
        rw [h2] at h
        simp only [Option.map_some, Option.some.injEq, Prod.mk.injEq] at h
        obtain ⟨rfl, rfl⟩ := h
        obtain ⟨xs, h3, h4, h5, h6, h7⟩ := cloneMany_new hcl n (m ++ [w]) p.1 p.2
          (by rw [List.getElem?_append_left hlt, ha]) h2
        refine ⟨w :: xs, by rw [h3]; simp, ?_, by simp [h5], ?_, ?_⟩
        · intro v hv
          rcases List.mem_cons.1 hv with rfl | hv
          · exact hw
          · exact h4 v hv
        · refine List.nodup_cons.2 ⟨fun hc => ?_, h6⟩
          have := (h7 _ hc).1
          simp at this; omega
        · intro c hc
          rcases List.mem_cons.1 hc with rfl | hc
          · exact ⟨Nat.le_refl _, by rw [h3]; simp⟩
          · have := h7 c hc
            simp at this ⊢; omega

end Verif.Clone
