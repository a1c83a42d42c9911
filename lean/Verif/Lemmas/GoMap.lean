import Verif.Model.Go
/-! Facts about Go maps as association lists. -/
namespace Verif.GoMap
variable {κ α β : Type} [DecidableEq κ]

theorem get?_set_self (m : GoMap κ α) (k : κ) (v : α) : get? (set m k v) k = some v := by
  induction m with
  | nil => simp [set, get?]
  | cons e m ih =>
    obtain ⟨k', v'⟩ := e
    simp only [set]
    split
    · simp [get?]
    · rename_i h; simp [get?, h, ih]

theorem get?_set_ne {m : GoMap κ α} {k k' : κ} {v : α} (h : k ≠ k') :
    get? (set m k v) k' = get? m k' := by
  induction m with
  | nil => simp [set, get?, h]
  | cons e m ih =>
    obtain ⟨k0, v0⟩ := e
    simp only [set]
    split
    · rename_i h0; subst h0; simp [get?, h]
    · simp only [get?]; split
      · rfl
      · exact ih

theorem get?_set (m : GoMap κ α) (k k' : κ) (v : α) :
    get? (set m k v) k' = if k = k' then some v else get? m k' := by
  split
  · rename_i h; subst h; exact get?_set_self _ _ _
  · rename_i h; exact get?_set_ne h

theorem get?_mem {m : GoMap κ α} {k : κ} {v : α} (h : get? m k = some v) : (k, v) ∈ m := by
  induction m with
  | nil => simp [get?] at h
  | cons e m ih =>
    obtain ⟨k0, v0⟩ := e
    simp only [get?] at h
    split at h
    · rename_i h0; subst h0; simp at h; simp [h]
    · exact List.mem_cons_of_mem _ (ih h)

theorem get?_eq_none {m : GoMap κ α} {k : κ} : get? m k = none ↔ k ∉ keys m := by
  induction m with
  | nil => simp [get?, keys]
  | cons e m ih =>
    obtain ⟨k0, v0⟩ := e
    simp only [get?, keys, List.map_cons, List.mem_cons, not_or]
    split
    · rename_i h; simp [h]
    · rename_i h
      rw [ih]
      simp only [keys]
      exact ⟨fun h1 => ⟨fun h2 => h h2.symm, h1⟩, fun h1 => h1.2⟩

theorem get?_isSome {m : GoMap κ α} {k : κ} : (get? m k).isSome ↔ k ∈ keys m := by
  rw [← Decidable.not_iff_not, ← get?_eq_none]; simp

theorem mem_get? {m : GoMap κ α} (hn : (keys m).Nodup) {k : κ} {v : α} (h : (k, v) ∈ m) :
    get? m k = some v := by
  induction m with
  | nil => simp at h
  | cons e m ih =>
    obtain ⟨k0, v0⟩ := e
    simp only [keys, List.map_cons, List.nodup_cons] at hn
    simp only [List.mem_cons, Prod.mk.injEq] at h
    simp only [get?]
    rcases h with ⟨h1, h2⟩ | h
    · simp [h1, h2]
    · have : k0 ≠ k := by
        intro h0; subst h0
        exact hn.1 (List.mem_map.2 ⟨_, h, rfl⟩)
      simp [this, ih hn.2 h]

theorem mem_keys_set {m : GoMap κ α} {k : κ} {v : α} {x : κ} :
    x ∈ keys (set m k v) ↔ x = k ∨ x ∈ keys m := by
  rw [← get?_isSome, ← get?_isSome, get?_set]
  split
  · rename_i h; simp [h]
  · rename_i h
    constructor
    · exact Or.inr
    · rintro (h1 | h1)
      · exact absurd h1.symm h
      · exact h1

theorem nodup_set {m : GoMap κ α} {k : κ} {v : α} (h : (keys m).Nodup) :
    (keys (set m k v)).Nodup := by
  induction m with
  | nil => simp [set, keys]
  | cons e m ih =>
    obtain ⟨k', v'⟩ := e
    simp only [keys, List.map_cons, List.nodup_cons] at h
    simp only [set]
    split
    · rename_i h0; subst h0; simpa [keys] using h
    · rename_i h0
      simp only [keys, List.map_cons, List.nodup_cons]
      refine ⟨fun hm => ?_, ih h.2⟩
      rcases (mem_keys_set (m := m) (k := k) (v := v)).1 hm with h1 | h1
      · exact h0 h1
      · exact h.1 h1

theorem get?_map (m : GoMap κ α) (f : α → β) (k : κ) :
    get? (m.map fun e => (e.1, f e.2)) k = (get? m k).map f := by
  induction m with
  | nil => rfl
  | cons e m ih =>
    obtain ⟨k', v'⟩ := e
    simp only [List.map_cons, get?]
    split
    · rfl
    · exact ih

end Verif.GoMap
