import Verif.Spec.TreeMany
/-!
# Invariants of concurrent additions
-/
set_option linter.unusedSimpArgs false
set_option linter.unusedVariables false

namespace Verif.TreeMany

theorem upd_same {α : Type} (f : Nat → α) (k : Nat) (v : α) : upd f k v k = v := by simp [upd]
theorem upd_other {α : Type} (f : Nat → α) {k i : Nat} (v : α) (h : i ≠ k) : upd f k v i = f i := by simp [upd, h]

/-! ## What grows -/

/-- The memory of a later state. -/
structure Grows (s s' : St) : Prop where
  next : s.next ≤ s'.next
  name : ∀ a, a < s.next → (s'.node a).name = (s.node a).name
  downs : ∀ a, (s.node a).downs <+: (s'.node a).downs

theorem Grows.refl (s : St) : Grows s s := ⟨Nat.le_refl _, fun _ _ => rfl, fun _ => List.prefix_refl _⟩

theorem Grows.trans {s s' s'' : St} (h : Grows s s') (h' : Grows s' s'') : Grows s s'' :=
  ⟨Nat.le_trans h.next h'.next, fun a ha => (h'.name a (Nat.lt_of_lt_of_le ha h.next)).trans (h.name a ha),
    fun a => (h.downs a).trans (h'.downs a)⟩

/-- Children are existing nodes, made after their parents. -/
def Low (s : St) : Prop := ∀ p c, c ∈ (s.node p).downs → p < c ∧ c < s.next

theorem Path.grows {s s' : St} (hg : Grows s s') (hl : Low s) {a x : Nat} {l : List Bytes} (h : Path s a l x) : Path s' a l x := by
  induction h with
  | here a => exact .here a
  | down hd _ ih =>
    rw [← hg.name _ (hl _ _ hd).2]
    exact .down ((hg.downs _).subset hd) ih

theorem Path.append {s : St} {a x y : Nat} {l l' : List Bytes} (h : Path s a l x) (h' : Path s x l' y) : Path s a (l ++ l') y := by
  induction h with
  | here a => exact h'
  | down hd _ ih => exact .down hd (ih h')

theorem Path.snoc {s : St} {a x d : Nat} {l : List Bytes} (h : Path s a l x) (hd : d ∈ (s.node x).downs) {n : Bytes} (hn : (s.node d).name = n) :
    Path s a (l ++ [n]) d := by
  subst hn
  exact h.append (.down hd (.here d))

theorem Path.lt {s : St} (hl : Low s) {a x : Nat} {l : List Bytes} (h : Path s a l x) : a ≤ x := by
  induction h with
  | here a => exact Nat.le_refl _
  | down hd _ ih => exact Nat.le_trans (Nat.le_of_lt (hl _ _ hd).1) ih

theorem Path.lt' {s : St} (hl : Low s) {a x : Nat} {l : List Bytes} (h : Path s a l x) (hne : l ≠ []) : a < x := by
  cases h with
  | here a => exact absurd rfl hne
  | down hd h => exact Nat.lt_of_lt_of_le (hl _ _ hd).1 (h.lt hl)

theorem Path.old {s : St} (hl : Low s) {a x : Nat} {l : List Bytes} (h : Path s a l x) (ha : a < s.next) : x < s.next := by
  induction h with
  | here a => exact ha
  | down hd _ ih => exact ih (hl _ _ hd).2

/-! ## `grep` -/

theorem grep_some {s : St} {a d : Nat} {n : Bytes} (h : s.grep a n = some d) : d ∈ (s.node a).downs ∧ (s.node d).name = n :=
  ⟨List.mem_of_find?_eq_some h, by have := List.find?_some h; simpa using this⟩

theorem grep_none {s : St} {a : Nat} {n : Bytes} (h : s.grep a n = none) {d : Nat} (hd : d ∈ (s.node a).downs) : (s.node d).name ≠ n := by
  have := List.find?_eq_none.1 h d hd
  simpa using this

theorem find?_prefix {α : Type} {p q : α → Bool} {l l' : List α} (h : l <+: l') (hpq : ∀ x ∈ l, p x = q x) {x : α} (hx : l.find? p = some x) :
    l'.find? q = some x := by
  obtain ⟨r, rfl⟩ := h
  have : l.find? q = some x := by
    induction l with
    | nil => cases hx
    | cons y l ih =>
      have hy := hpq y (List.mem_cons_self ..)
      rw [List.find?_cons] at hx ⊢
      rw [← hy]
      split at hx
      · exact hx
      · exact ih (fun z hz => hpq z (List.mem_cons_of_mem _ hz)) hx
  rw [List.find?_append, this]
  rfl

theorem grep_grows {s s' : St} (hg : Grows s s') (hl : Low s) {a d : Nat} {n : Bytes} (h : s.grep a n = some d) : s'.grep a n = some d := by
  refine find?_prefix (hg.downs a) (fun x hx => ?_) h
  rw [hg.name x (hl _ _ hx).2]

/-! ## The invariant -/

/-- What a call has returned. -/
def Result (s : St) : Call → Option Nat → Prop
  | .add self tag names, r => self < s.next ∧ ∃ x, r = some x ∧ Path s self (tag :: names) x
  | .get self tag names, r => self < s.next ∧ ∀ x, r = some x → if tag = [] then x = self else Path s self (tag :: names) x
  | .find self names, r => self < s.next ∧ ∀ x, r = some x → ∃ l, Path s self l x ∧ names.Sublist l ∧ l.getLast? = names.getLast?

/-- A loop of `FindNode`. -/
def FrameOk (s : St) (self : Nat) (names : List Bytes) (f : List Nat × List Bytes) : Prop :=
  ∃ pre l p, names = pre ++ f.2 ∧ f.2 ≠ [] ∧ Path s self l p ∧ pre.Sublist l ∧ ∀ d ∈ f.1, d ∈ (s.node p).downs

/-- What holds where a goroutine is. -/
def PCok (s : St) : PC → Prop
  | .idle => True
  | .scan c cur n rest | .want c cur n rest | .locked c cur n rest =>
    ∃ self tag names pre, c = .add self tag names ∧ tag :: names = pre ++ n :: rest ∧ Path s self pre cur ∧ self < s.next
  | .linked c cur child rest | .unlock c cur child rest =>
    ∃ self tag names pre n, c = .add self tag names ∧ tag :: names = pre ++ n :: rest ∧ Path s self pre cur ∧ self < s.next ∧
      child ∈ (s.node cur).downs ∧ (s.node child).name = n
  | .get c cur n rest =>
    ∃ self tag names pre, c = .get self tag names ∧ tag ≠ [] ∧ tag :: names = pre ++ n :: rest ∧ Path s self pre cur ∧ self < s.next
  | .find c fs => ∃ self names, c = .find self names ∧ self < s.next ∧ ∀ f ∈ fs, FrameOk s self names f

theorem Result.grows {s s' : St} (hg : Grows s s') (hl : Low s) {c : Call} {r : Option Nat} (h : Result s c r) : Result s' c r := by
  cases c with
  | add self tag names =>
    obtain ⟨h1, x, h2, h3⟩ := h
    exact ⟨Nat.lt_of_lt_of_le h1 hg.next, x, h2, h3.grows hg hl⟩
  | get self tag names =>
    refine ⟨Nat.lt_of_lt_of_le h.1 hg.next, fun x hx => ?_⟩
    have := h.2 x hx
    split at this
    · rename_i ht
      rw [if_pos ht]
      exact this
    · rename_i ht
      rw [if_neg ht]
      exact this.grows hg hl
  | find self names =>
    refine ⟨Nat.lt_of_lt_of_le h.1 hg.next, fun x hx => ?_⟩
    obtain ⟨l, h1, h2⟩ := h.2 x hx
    exact ⟨l, h1.grows hg hl, h2⟩

theorem FrameOk.grows {s s' : St} (hg : Grows s s') (hl : Low s) {self : Nat} {names : List Bytes} {f : List Nat × List Bytes}
    (h : FrameOk s self names f) : FrameOk s' self names f := by
  obtain ⟨pre, l, p, h1, h2, h3, h4, h5⟩ := h
  exact ⟨pre, l, p, h1, h2, h3.grows hg hl, h4, fun d hd => (hg.downs p).subset (h5 d hd)⟩

theorem PCok.grows {s s' : St} (hg : Grows s s') (hl : Low s) {p : PC} (h : PCok s p) : PCok s' p := by
  cases p with
  | idle => trivial
  | scan c cur n rest =>
    obtain ⟨self, tag, names, pre, h1, h2, h3, h4⟩ := h
    exact ⟨self, tag, names, pre, h1, h2, h3.grows hg hl, Nat.lt_of_lt_of_le h4 hg.next⟩
  | want c cur n rest =>
    obtain ⟨self, tag, names, pre, h1, h2, h3, h4⟩ := h
    exact ⟨self, tag, names, pre, h1, h2, h3.grows hg hl, Nat.lt_of_lt_of_le h4 hg.next⟩
  | locked c cur n rest =>
    obtain ⟨self, tag, names, pre, h1, h2, h3, h4⟩ := h
    exact ⟨self, tag, names, pre, h1, h2, h3.grows hg hl, Nat.lt_of_lt_of_le h4 hg.next⟩
  | linked c cur child rest =>
    obtain ⟨self, tag, names, pre, n, h1, h2, h3, h4, h5, h6⟩ := h
    exact ⟨self, tag, names, pre, n, h1, h2, h3.grows hg hl, Nat.lt_of_lt_of_le h4 hg.next, (hg.downs _).subset h5,
      (hg.name _ (hl _ _ h5).2).trans h6⟩
  | unlock c cur child rest =>
    obtain ⟨self, tag, names, pre, n, h1, h2, h3, h4, h5, h6⟩ := h
    exact ⟨self, tag, names, pre, n, h1, h2, h3.grows hg hl, Nat.lt_of_lt_of_le h4 hg.next, (hg.downs _).subset h5,
      (hg.name _ (hl _ _ h5).2).trans h6⟩
  | get c cur n rest =>
    obtain ⟨self, tag, names, pre, h1, h0, h2, h3, h4⟩ := h
    exact ⟨self, tag, names, pre, h1, h0, h2, h3.grows hg hl, Nat.lt_of_lt_of_le h4 hg.next⟩
  | find c fs =>
    obtain ⟨self, names, h1, h2, h3⟩ := h
    exact ⟨self, names, h1, Nat.lt_of_lt_of_le h2 hg.next, fun f hf => (h3 f hf).grows hg hl⟩

/-- The node whose lock is held there. -/
def PC.holds : PC → Option Nat
  | .locked _ cur _ _ => some cur
  | .linked _ cur _ _ => some cur
  | .unlock _ cur _ _ => some cur
  | _ => none

structure Inv (s : St) : Prop where
  low : Low s
  nodup : ∀ p, (s.node p).downs.Nodup
  one : ∀ p q c, c ∈ (s.node p).downs → c ∈ (s.node q).downs → p = q
  up : ∀ p c, c ∈ (s.node p).downs → (s.node c).up = some p ∨ ∃ t k rest, s.pc t = .linked k p c rest
  locks : ∀ a t, (s.node a).lock = some t ↔ (s.pc t).holds = some a
  pcs : ∀ t, PCok s (s.pc t)
  logs : ∀ t e, e ∈ s.log t → Result s e.1 e.2

theorem Inv.init {s : St} (h : s.Init) : Inv s where
  low := h.low
  nodup := h.nodup
  one := h.one
  up p c hc := Or.inl (h.up p c hc)
  locks a t := by rw [h.free, h.idle]; simp [PC.holds]
  pcs t := by rw [h.idle]; trivial
  logs t e he := by rw [h.log] at he; cases he

/-- What a step does. -/
inductive Tr (s : St) (t : Nat) : St → Prop
  | goto {p : PC} : (s.pc t).holds = none → p.holds = none → PCok s p → (∀ c cur n rest, p = .want c cur n rest → s.grep cur n = none) →
      Tr s t (s.goto t p)
  | ret {c : Call} {r : Option Nat} : (s.pc t).holds = none → Result s c r → Tr s t (s.ret t c r)
  | lock {c : Call} {cur : Nat} {n : Bytes} {rest : List Bytes} : s.pc t = .want c cur n rest → (s.node cur).lock = none →
      Tr s t ((s.set cur { s.node cur with lock := some t }).goto t (.locked c cur n rest))
  | link {c : Call} {cur : Nat} {n : Bytes} {rest : List Bytes} : s.pc t = .locked c cur n rest →
      Tr s t ((s.link cur n).goto t (.linked c cur s.next rest))
  | up {c : Call} {cur child : Nat} {rest : List Bytes} : s.pc t = .linked c cur child rest →
      Tr s t ((s.set child { s.node child with up := some cur }).goto t (.unlock c cur child rest))
  | unlock {c : Call} {cur child : Nat} {n : Bytes} {rest : List Bytes} : s.pc t = .unlock c cur child (n :: rest) →
      Tr s t ((s.set cur { s.node cur with lock := none }).goto t (.scan c child n rest))
  | unlockRet {c : Call} {cur child : Nat} : s.pc t = .unlock c cur child [] →
      Tr s t ((s.set cur { s.node cur with lock := none }).ret t c (some child))

theorem snoc_cons {α : Type} (pre : List α) (n : α) (rest : List α) : pre ++ n :: rest = (pre ++ [n]) ++ rest := by simp

theorem Inv.tr {s s' : St} (h : Inv s) {t : Nat} {c : Call} (hs : s.step t c = some s') : Tr s t s' := by
  have hp := h.pcs t
  unfold St.step at hs
  cases hpc : s.pc t with
  | idle =>
    simp only [hpc] at hs
    split at hs
    · rename_i hlt
      cases hs
      cases c with
      | add self tag names =>
        exact .goto (by rw [hpc]; rfl) rfl ⟨self, tag, names, [], rfl, rfl, .here self, hlt⟩ (fun _ _ _ _ he => by cases he)
      | get self tag names =>
        by_cases ht : tag = []
        · simp only [St.begin, if_pos ht]
          exact .ret (by rw [hpc]; rfl) ⟨hlt, fun x hx => by rw [if_pos ht]; exact (Option.some.inj hx).symm⟩
        · simp only [St.begin, if_neg ht]
          exact .goto (by rw [hpc]; rfl) rfl ⟨self, tag, names, [], rfl, ht, rfl, .here self, hlt⟩ (fun _ _ _ _ he => by cases he)
      | find self names =>
        by_cases ht : names = []
        · simp only [St.begin, if_pos ht]
          exact .ret (by rw [hpc]; rfl) ⟨hlt, fun x hx => by cases hx⟩
        · simp only [St.begin, if_neg ht]
          refine .goto (by rw [hpc]; rfl) rfl ⟨self, names, rfl, hlt, fun f hf => ?_⟩ (fun _ _ _ _ he => by cases he)
          rw [List.mem_singleton.1 hf]
          exact ⟨[], [], self, rfl, ht, .here self, List.Sublist.refl _, fun d hd => hd⟩
    · cases hs
  | scan c cur n rest =>
    rw [hpc] at hp
    obtain ⟨self, tag, names, pre, rfl, h2, h3, h4⟩ := hp
    simp only [hpc] at hs
    cases hg : s.grep cur n with
    | none =>
      simp only [hg] at hs
      cases hs
      exact .goto (by rw [hpc]; rfl) rfl ⟨self, tag, names, pre, rfl, h2, h3, h4⟩ (fun _ _ _ _ he => by cases he; exact hg)
    | some d =>
      simp only [hg] at hs
      cases hs
      obtain ⟨hd, hn⟩ := grep_some hg
      have h3 := h3.snoc hd hn
      cases rest with
      | nil => exact .ret (by rw [hpc]; rfl) ⟨h4, d, rfl, by rw [h2]; exact h3⟩
      | cons m rest => exact .goto (by rw [hpc]; rfl) rfl ⟨self, tag, names, pre ++ [n], rfl, by rw [h2]; exact snoc_cons .., h3, h4⟩ (fun _ _ _ _ he => by cases he)
  | want c cur n rest =>
    simp only [hpc] at hs
    cases hl : (s.node cur).lock with
    | none =>
      simp only [hl] at hs
      cases hs
      exact .lock hpc hl
    | some u =>
      simp only [hl] at hs
      cases hs
  | locked c cur n rest =>
    simp only [hpc] at hs
    cases hs
    exact .link hpc
  | linked c cur child rest =>
    simp only [hpc] at hs
    cases hs
    exact .up hpc
  | unlock c cur child rest =>
    simp only [hpc] at hs
    cases hs
    cases rest with
    | nil => exact .unlockRet hpc
    | cons n rest => exact .unlock hpc
  | get c cur n rest =>
    rw [hpc] at hp
    obtain ⟨self, tag, names, pre, rfl, h0, h2, h3, h4⟩ := hp
    simp only [hpc] at hs
    cases hs
    cases hg : s.grep cur n with
    | none => exact .ret (by rw [hpc]; rfl) ⟨h4, fun x hx => by cases hx⟩
    | some d =>
      obtain ⟨hd, hn⟩ := grep_some hg
      have h3 := h3.snoc hd hn
      cases rest with
      | nil =>
        refine .ret (by rw [hpc]; rfl) ⟨h4, fun x hx => ?_⟩
        rw [if_neg h0, h2, ← Option.some.inj hx]
        exact h3
      | cons m rest => exact .goto (by rw [hpc]; rfl) rfl ⟨self, tag, names, pre ++ [n], rfl, h0, by rw [h2]; exact snoc_cons .., h3, h4⟩ (fun _ _ _ _ he => by cases he)
  | find c fs =>
    rw [hpc] at hp
    obtain ⟨self, names, rfl, h2, h3⟩ := hp
    simp only [hpc] at hs
    cases hs
    have hh : (s.pc t).holds = none := by rw [hpc]; rfl
    rcases fs with _ | ⟨⟨_ | ⟨d, ds⟩, _ | ⟨n, ns⟩⟩, fs⟩
    · exact .ret hh ⟨h2, fun x hx => by cases hx⟩
    · exact .goto hh rfl ⟨self, names, rfl, h2, fun f hf => h3 f (List.mem_cons_of_mem _ hf)⟩ (fun _ _ _ _ he => by cases he)
    · exact .goto hh rfl ⟨self, names, rfl, h2, fun f hf => h3 f (List.mem_cons_of_mem _ hf)⟩ (fun _ _ _ _ he => by cases he)
    · exact .goto hh rfl ⟨self, names, rfl, h2, fun f hf => h3 f (List.mem_cons_of_mem _ hf)⟩ (fun _ _ _ _ he => by cases he)
    · obtain ⟨pre, l, p, e1, e2, e3, e4, e5⟩ := h3 _ (List.mem_cons_self ..)
      have hd := e5 d (List.mem_cons_self ..)
      simp only [St.findStep]
      by_cases hn : (s.node d).name = n
      · rw [if_pos hn]
        have hpath := e3.snoc hd hn
        have hsub : (pre ++ [n]).Sublist (l ++ [n]) := List.Sublist.append e4 (List.Sublist.refl _)
        by_cases hns : ns = []
        · rw [if_pos hns]
          subst hns
          refine .ret hh ⟨h2, fun x hx => ⟨l ++ [n], ?_, ?_, ?_⟩⟩
          · rw [← Option.some.inj hx]; exact hpath
          · rw [e1]; exact hsub
          · rw [e1]; simp
        · rw [if_neg hns]
          refine .goto hh rfl ⟨self, names, rfl, h2, fun f hf => ?_⟩ (fun _ _ _ _ he => by cases he)
          rcases List.mem_cons.1 hf with rfl | hf
          · exact ⟨pre ++ [n], l ++ [n], d, by rw [e1]; exact snoc_cons .., hns, hpath, hsub, fun d hd => hd⟩
          · exact h3 f (List.mem_cons_of_mem _ hf)
      · rw [if_neg hn]
        refine .goto hh rfl ⟨self, names, rfl, h2, fun f hf => ?_⟩ (fun _ _ _ _ he => by cases he)
        rcases List.mem_cons.1 hf with rfl | hf
        · exact ⟨pre, l ++ [(s.node d).name], d, e1, e2, e3.snoc hd rfl, e4.trans (List.sublist_append_left ..), fun d hd => hd⟩
        · rcases List.mem_cons.1 hf with rfl | hf
          · exact ⟨pre, l, p, e1, e2, e3, e4, fun x hx => e5 x (List.mem_cons_of_mem _ hx)⟩
          · exact h3 f (List.mem_cons_of_mem _ hf)

/-! ## Preservation -/

/-- A change of a node that keeps its name and children. -/
theorem grows_set {s : St} {a : Nat} {n : Node} (hn : n.name = (s.node a).name) (hd : n.downs = (s.node a).downs) : Grows s (s.set a n) where
  next := Nat.le_refl _
  name x _ := by
    by_cases hx : x = a
    · subst hx; simp [St.set, upd_same, hn]
    · simp [St.set, upd_other _ _ hx]
  downs x := by
    by_cases hx : x = a
    · subst hx; simp [St.set, upd_same, hd]
    · simp [St.set, upd_other _ _ hx]

theorem grows_link {s : St} (cur : Nat) (n : Bytes) (hc : cur < s.next) (hl : Low s) : Grows s (s.link cur n) where
  next := Nat.le_succ _
  name x hx := by
    by_cases hxc : x = cur
    · subst hxc; simp [St.link, upd_same]
    · simp [St.link, upd_other _ _ hxc, upd_other _ _ (Nat.ne_of_lt hx)]
  downs x := by
    by_cases hxc : x = cur
    · subst hxc; simp [St.link, upd_same]
    · by_cases hxn : x = s.next
      · subst hxn
        have : (s.node s.next).downs = [] := by
          cases hd : (s.node s.next).downs with
          | nil => rfl
          | cons c l =>
            have := hl s.next c (by rw [hd]; exact List.mem_cons_self ..)
            omega
        rw [this]
        exact List.nil_prefix
      · simp [St.link, upd_other _ _ hxc, upd_other _ _ hxn]

theorem cur_lt {s : St} (h : Inv s) {t : Nat} {c : Call} {cur : Nat} {n : Bytes} {rest : List Bytes} (hpc : s.pc t = .locked c cur n rest) :
    cur < s.next := by
  have hp := h.pcs t
  rw [hpc] at hp
  obtain ⟨self, tag, names, pre, _, _, h3, h4⟩ := hp
  exact h3.old h.low h4

theorem grows_pc {s s' : St} {f : Nat → PC} {g : Nat → List (Call × Option Nat)} (h : Grows s s') : Grows s { s' with pc := f, log := g } :=
  ⟨h.next, h.name, h.downs⟩

theorem Tr.grows {s s' : St} (h : Inv s) {t : Nat} (ht : Tr s t s') : Grows s s' := by
  cases ht with
  | goto _ _ _ _ => exact grows_pc (g := s.log) (.refl s)
  | ret _ _ => exact grows_pc (.refl s)
  | lock _ _ => exact grows_pc (g := s.log) (grows_set rfl rfl)
  | link hpc => exact grows_pc (g := s.log) (grows_link _ _ (cur_lt h hpc) h.low)
  | up _ => exact grows_pc (g := s.log) (grows_set rfl rfl)
  | unlock _ => exact grows_pc (g := s.log) (grows_set rfl rfl)
  | unlockRet _ => exact grows_pc (grows_set rfl rfl)

/-- Downs as before: nothing changes in the shape. -/
theorem set_downs {s : St} {a : Nat} {n : Node} (hd : n.downs = (s.node a).downs) (x : Nat) : ((s.set a n).node x).downs = (s.node x).downs := by
  by_cases hx : x = a
  · subst hx; simp [St.set, upd_same, hd]
  · simp [St.set, upd_other _ _ hx]

theorem mem_set {s : St} {a p x : Nat} {n : Node} (hx : x ∈ (upd s.node a n p).downs) (hd : n.downs = (s.node a).downs) :
    x ∈ (s.node p).downs := by
  rwa [← set_downs hd p]

theorem link_downs {s : St} {cur : Nat} {n : Bytes} (hc : cur < s.next) (hl : Low s) (x d : Nat) :
    d ∈ ((s.link cur n).node x).downs ↔ d ∈ (s.node x).downs ∨ x = cur ∧ d = s.next := by
  by_cases hx : x = cur
  · subst hx; simp [St.link, upd_same]
  · by_cases hxn : x = s.next
    · subst hxn
      have : d ∉ (s.node s.next).downs := fun hd => by have := hl _ _ hd; omega
      simp [St.link, upd_other _ _ hx, upd_same, newNode, this, hx]
    · simp [St.link, upd_other _ _ hx, upd_other _ _ hxn, hx]

theorem Tr.shape {s s' : St} (h : Inv s) {t : Nat} (ht : Tr s t s') :
    Low s' ∧ (∀ p, (s'.node p).downs.Nodup) ∧ ∀ p q c, c ∈ (s'.node p).downs → c ∈ (s'.node q).downs → p = q := by
  have same : ∀ {s1 : St}, (∀ x, (s1.node x).downs = (s.node x).downs) → s1.next = s.next →
      Low s1 ∧ (∀ p, (s1.node p).downs.Nodup) ∧ ∀ p q c, c ∈ (s1.node p).downs → c ∈ (s1.node q).downs → p = q := by
    intro s1 hd hn
    refine ⟨fun p c hc => ?_, fun p => ?_, fun p q c hp hq => ?_⟩
    · rw [hd] at hc
      rw [hn]
      exact h.low p c hc
    · rw [hd]; exact h.nodup p
    · rw [hd] at hp hq; exact h.one p q c hp hq
  cases ht with
  | goto _ _ _ _ => exact same (fun _ => rfl) rfl
  | ret _ _ => exact same (fun _ => rfl) rfl
  | lock _ _ => exact same (set_downs rfl) rfl
  | up _ => exact same (set_downs rfl) rfl
  | unlock _ => exact same (set_downs rfl) rfl
  | unlockRet _ => exact same (set_downs rfl) rfl
  | @link c cur n rest hpc =>
    have hc := cur_lt h hpc
    have hm : ∀ x d, d ∈ ((s.link cur n).node x).downs ↔ _ := link_downs hc h.low
    refine ⟨fun p c hp => ?_, fun p => ?_, fun p q c hp hq => ?_⟩
    · show p < c ∧ c < s.next + 1
      rcases (hm p c).1 hp with hp | ⟨rfl, rfl⟩
      · have := h.low p c hp; omega
      · omega
    · show ((s.link cur n).node p).downs.Nodup
      by_cases hx : p = cur
      · subst hx
        simp only [St.link, upd_same]
        refine List.nodup_append.2 ⟨h.nodup p, by simp, ?_⟩
        intro a ha b hb
        rw [List.mem_singleton.1 hb]
        exact Nat.ne_of_lt (h.low _ _ ha).2
      · by_cases hxn : p = s.next
        · subst hxn
          simp [St.link, upd_other _ _ hx, upd_same, newNode]
        · simp only [St.link, upd_other _ _ hx, upd_other _ _ hxn]
          exact h.nodup p
    · rcases (hm p c).1 hp with hp | ⟨hp1, hp2⟩ <;> rcases (hm q c).1 hq with hq | ⟨hq1, hq2⟩
      · exact h.one p q c hp hq
      · have := (h.low _ _ hp).2; omega
      · have := (h.low _ _ hq).2; omega
      · rw [hp1, hq1]

theorem locks_same {s : St} (h : Inv s) {t : Nat} {p : PC} (h1 : (s.pc t).holds = p.holds) (a u : Nat) :
    (s.node a).lock = some u ↔ (upd s.pc t p u).holds = some a := by
  rw [h.locks]
  by_cases hu : u = t
  · subst hu; rw [upd_same, h1]
  · rw [upd_other _ _ hu]

theorem Tr.locks {s s' : St} (h : Inv s) {t : Nat} (ht : Tr s t s') (a u : Nat) : (s'.node a).lock = some u ↔ (s'.pc u).holds = some a := by
  have unl : ∀ {cur : Nat} {p : PC}, (s.pc t).holds = some cur → p.holds = none →
      (((s.set cur { s.node cur with lock := none }).node a).lock = some u ↔ (upd s.pc t p u).holds = some a) := by
    intro cur p hh hp
    by_cases hu : u = t
    · subst hu
      rw [upd_same, hp]
      by_cases ha : a = cur
      · subst ha; simp [St.set, upd_same]
      · simp only [St.set, upd_other _ _ ha, h.locks, hh]
        simp [Ne.symm ha]
    · rw [upd_other _ _ hu]
      by_cases ha : a = cur
      · subst ha
        have h1 := (h.locks a t).2 hh
        have : (s.pc u).holds ≠ some a := by
          intro h2
          have h2 := (h.locks a u).2 h2
          rw [h1] at h2
          exact hu (Option.some.inj h2).symm
        simp [St.set, upd_same, this]
      · simp only [St.set, upd_other _ _ ha, h.locks]
  cases ht with
  | goto h1 h2 _ _ => exact locks_same h (h1.trans h2.symm) a u
  | ret h1 _ => exact locks_same h (h1.trans rfl) a u
  | @lock c cur n rest hpc hl =>
    show ((s.set cur _).node a).lock = some u ↔ (upd s.pc t _ u).holds = some a
    by_cases hu : u = t
    · subst hu
      rw [upd_same]
      by_cases ha : a = cur
      · subst ha; simp [St.set, upd_same, PC.holds]
      · simp only [St.set, upd_other _ _ ha, h.locks, hpc]
        simp [PC.holds, Ne.symm ha]
    · rw [upd_other _ _ hu, ← h.locks]
      by_cases ha : a = cur
      · subst ha; simp [St.set, upd_same, hl, Ne.symm hu]
      · simp only [St.set, upd_other _ _ ha]
  | @link c cur n rest hpc =>
    show ((s.link cur n).node a).lock = some u ↔ (upd s.pc t _ u).holds = some a
    rw [← locks_same h (by rw [hpc]; rfl) a u]
    by_cases ha : a = cur
    · subst ha; simp [St.link, upd_same]
    · by_cases han : a = s.next
      · subst han
        simp only [St.link, upd_other _ _ ha, upd_same, newNode]
        refine ⟨fun hh => by simp at hh, fun hh => ?_⟩
        exfalso
        have hh := (h.locks _ _).1 hh
        have hp := h.pcs u
        cases hq : s.pc u with
        | locked c' cur' n' rest' =>
          rw [hq] at hh hp
          cases hh
          obtain ⟨_, _, _, _, _, _, h3, h4⟩ := hp
          exact absurd (h3.old h.low h4) (Nat.lt_irrefl _)
        | linked c' cur' n' rest' =>
          rw [hq] at hh hp
          cases hh
          obtain ⟨_, _, _, _, _, _, _, h3, h4, _⟩ := hp
          exact absurd (h3.old h.low h4) (Nat.lt_irrefl _)
        | unlock c' cur' n' rest' =>
          rw [hq] at hh hp
          cases hh
          obtain ⟨_, _, _, _, _, _, _, h3, h4, _⟩ := hp
          exact absurd (h3.old h.low h4) (Nat.lt_irrefl _)
        | _ => rw [hq] at hh; cases hh
      · simp [St.link, upd_other _ _ ha, upd_other _ _ han]
  | @up c cur child rest hpc =>
    show ((s.set child _).node a).lock = some u ↔ (upd s.pc t _ u).holds = some a
    rw [← locks_same h (by rw [hpc]; rfl) a u]
    by_cases ha : a = child
    · subst ha; simp [St.set, upd_same]
    · simp [St.set, upd_other _ _ ha]
  | unlock hpc => exact unl (by rw [hpc]; rfl) rfl
  | unlockRet hpc => exact unl (by rw [hpc]; rfl) rfl

theorem Tr.up' {s s' : St} (h : Inv s) {t : Nat} (ht : Tr s t s') (p x : Nat) (hx : x ∈ (s'.node p).downs) :
    (s'.node x).up = some p ∨ ∃ u k rest, s'.pc u = .linked k p x rest := by
  have keep : ∀ {s1 : St} {q : PC}, (∀ k p x rest, s.pc t ≠ .linked k p x rest) → (∀ a, (s1.node a).up = (s.node a).up) →
      x ∈ (s.node p).downs → s1.pc = upd s.pc t q → (s1.node x).up = some p ∨ ∃ u k rest, s1.pc u = .linked k p x rest := by
    intro s1 q hne hup hx hpc
    rw [hup, hpc]
    rcases h.up p x hx with hu | ⟨u, k, rest, hu⟩
    · exact Or.inl hu
    · refine Or.inr ⟨u, k, rest, ?_⟩
      have : u ≠ t := fun e => hne k p x rest (e ▸ hu)
      rw [upd_other _ _ this, hu]
  have hset : ∀ {a : Nat} {n : Node}, n.up = (s.node a).up → ∀ x, ((s.set a n).node x).up = (s.node x).up := by
    intro a n hn x
    by_cases hx : x = a
    · subst hx; simp [St.set, upd_same, hn]
    · simp [St.set, upd_other _ _ hx]
  cases ht with
  | goto h1 _ _ _ => exact keep (fun k p x rest hc => by rw [hc] at h1; cases h1) (fun _ => rfl) hx rfl
  | ret h1 _ => exact keep (fun k p x rest hc => by rw [hc] at h1; cases h1) (fun _ => rfl) hx rfl
  | lock hpc _ => exact keep (fun k p x rest hc => by rw [hc] at hpc; cases hpc) (hset rfl) (mem_set (s := s) hx rfl) rfl
  | unlock hpc => exact keep (fun k p x rest hc => by rw [hc] at hpc; cases hpc) (hset rfl) (mem_set (s := s) hx rfl) rfl
  | unlockRet hpc => exact keep (fun k p x rest hc => by rw [hc] at hpc; cases hpc) (hset rfl) (mem_set (s := s) hx rfl) rfl
  | @link c cur n rest hpc =>
    have hc := cur_lt h hpc
    rcases (link_downs hc h.low p x).1 hx with hx | ⟨rfl, rfl⟩
    · have hlt := (h.low _ _ hx).2
      have hup : ((s.link cur n).node x).up = (s.node x).up := by
        by_cases hxc : x = cur
        · subst hxc; simp [St.link, upd_same]
        · simp [St.link, upd_other _ _ hxc, upd_other _ _ (Nat.ne_of_lt hlt)]
      show ((s.link cur n).node x).up = some p ∨ ∃ u k rest', upd s.pc t _ u = .linked k p x rest'
      rw [hup]
      rcases h.up p x hx with hu | ⟨u, k, rest', hu⟩
      · exact Or.inl hu
      · refine Or.inr ⟨u, k, rest', ?_⟩
        have : u ≠ t := fun e => by rw [e, hpc] at hu; cases hu
        rw [upd_other _ _ this, hu]
    · exact Or.inr ⟨t, c, rest, by simp [St.goto, upd_same]⟩
  | @up c cur child rest hpc =>
    have hx' : x ∈ (s.node p).downs := by rwa [← set_downs (s := s) (a := child) (n := { s.node child with up := some cur }) rfl p]
    show ((s.set child _).node x).up = some p ∨ ∃ u k rest', upd s.pc t _ u = .linked k p x rest'
    have hp := h.pcs t
    rw [hpc] at hp
    obtain ⟨_, _, _, _, _, _, _, _, _, h5, _⟩ := hp
    by_cases hxc : x = child
    · subst hxc
      left
      rw [h.one _ _ _ hx' h5]
      simp [St.set, upd_same]
    · rcases h.up p x hx' with hu | ⟨u, k, rest', hu⟩
      · left
        simp [St.set, upd_other _ _ hxc, hu]
      · right
        refine ⟨u, k, rest', ?_⟩
        have : u ≠ t := fun e => by
          rw [e, hpc] at hu
          cases hu
          exact hxc rfl
        rw [upd_other _ _ this, hu]

theorem pcs_own {s s' : St} (h : Inv s) (hg : Grows s s') {t : Nat} {p : PC} (hpc : s'.pc = upd s.pc t p) (hp : PCok s' p) (u : Nat) :
    PCok s' (s'.pc u) := by
  rw [hpc]
  by_cases hu : u = t
  · subst hu; rw [upd_same]; exact hp
  · rw [upd_other _ _ hu]; exact (h.pcs u).grows hg h.low

theorem Tr.pcs {s s' : St} (h : Inv s) {t : Nat} (ht : Tr s t s') (u : Nat) : PCok s' (s'.pc u) := by
  have hg := ht.grows h
  have hp := h.pcs t
  cases ht with
  | goto _ _ h3 _ => exact pcs_own h hg rfl (h3.grows hg h.low) u
  | ret _ _ => exact pcs_own h hg (p := .idle) rfl trivial u
  | lock hpc _ =>
    rw [hpc] at hp
    exact pcs_own h hg rfl (PCok.grows (p := .locked ..) hg h.low hp) u
  | @link c cur n rest hpc =>
    rw [hpc] at hp
    have hc := cur_lt h hpc
    obtain ⟨self, tag, names, pre, e1, e2, e3, e4⟩ := hp
    refine pcs_own h hg rfl ⟨self, tag, names, pre, n, e1, e2, e3.grows hg h.low, Nat.lt_of_lt_of_le e4 hg.next, ?_, ?_⟩ u
    · exact (link_downs hc h.low cur s.next).2 (Or.inr ⟨rfl, rfl⟩)
    · show ((s.link cur n).node s.next).name = n
      simp [St.link, upd_other _ _ (Nat.ne_of_gt hc), upd_same, newNode]
  | @up c cur child rest hpc =>
    rw [hpc] at hp
    exact pcs_own h hg rfl (PCok.grows (p := .unlock ..) hg h.low hp) u
  | @unlock c cur child n rest hpc =>
    rw [hpc] at hp
    obtain ⟨self, tag, names, pre, m, e1, e2, e3, e4, e5, e6⟩ := hp
    have : PCok s (.scan c child n rest) := ⟨self, tag, names, pre ++ [m], e1, by rw [e2]; exact snoc_cons .., e3.snoc e5 e6, e4⟩
    exact pcs_own h hg rfl (this.grows hg h.low) u
  | unlockRet _ => exact pcs_own h hg (p := .idle) rfl trivial u

theorem Tr.logs {s s' : St} (h : Inv s) {t : Nat} (ht : Tr s t s') (u : Nat) (e : Call × Option Nat) (he : e ∈ s'.log u) : Result s' e.1 e.2 := by
  have hg := ht.grows h
  have hp := h.pcs t
  have own : ∀ {c : Call} {r : Option Nat}, Result s c r → e ∈ upd s.log t ((c, r) :: s.log t) u → Result s' e.1 e.2 := by
    intro c r hr he
    by_cases hu : u = t
    · subst hu
      rw [upd_same] at he
      rcases List.mem_cons.1 he with rfl | he
      · exact hr.grows hg h.low
      · exact (h.logs _ e he).grows hg h.low
    · rw [upd_other _ _ hu] at he
      exact (h.logs _ e he).grows hg h.low
  cases ht with
  | goto _ _ _ _ => exact (h.logs u e he).grows hg h.low
  | ret _ hr => exact own hr he
  | lock _ _ => exact (h.logs u e he).grows hg h.low
  | link _ => exact (h.logs u e he).grows hg h.low
  | up _ => exact (h.logs u e he).grows hg h.low
  | unlock _ => exact (h.logs u e he).grows hg h.low
  | @unlockRet c cur child hpc =>
    rw [hpc] at hp
    obtain ⟨self, tag, names, pre, m, e1, e2, e3, e4, e5, e6⟩ := hp
    subst e1
    exact own (c := .add self tag names) ⟨e4, child, rfl, by rw [e2]; exact e3.snoc e5 e6⟩ he

theorem Inv.next {s s' : St} (h : Inv s) {t : Nat} {c : Call} (hs : s.step t c = some s') : Inv s' ∧ Grows s s' := by
  have ht := h.tr hs
  obtain ⟨h1, h2, h3⟩ := ht.shape h
  exact ⟨⟨h1, h2, h3, ht.up' h, ht.locks h, ht.pcs h, ht.logs h⟩, ht.grows h⟩

theorem run_cons {s s' : St} {t : Nat} {c : Call} {l : List (Nat × Call)} (h : s.run ((t, c) :: l) = some s') :
    ∃ s1, s.step t c = some s1 ∧ s1.run l = some s' := by
  rw [St.run] at h
  cases hs : s.step t c with
  | none => rw [hs] at h; cases h
  | some s1 => rw [hs] at h; exact ⟨s1, rfl, h⟩

theorem Inv.run {s s' : St} (h : Inv s) {l : List (Nat × Call)} (hr : s.run l = some s') : Inv s' ∧ Grows s s' := by
  induction l generalizing s with
  | nil => cases hr; exact ⟨h, .refl _⟩
  | cons e l ih =>
    obtain ⟨s1, h1, h2⟩ := run_cons hr
    obtain ⟨i1, g1⟩ := Inv.next h h1
    obtain ⟨i2, g2⟩ := ih i1 h2
    exact ⟨i2, g1.trans g2⟩

/-! ## Other goroutines -/

theorem Tr.other {s s' : St} {t u : Nat} (ht : Tr s u s') (h : t ≠ u) : s'.pc t = s.pc t ∧ s'.log t = s.log t := by
  cases ht <;> simp [St.goto, St.ret, St.set, St.link, upd_other _ _ h]

theorem Tr.log {s s' : St} {t u : Nat} (ht : Tr s u s') : ∃ pre, s'.log t = pre ++ s.log t := by
  by_cases h : t = u
  · subst h
    cases ht with
    | goto _ _ _ _ => exact ⟨[], rfl⟩
    | @ret c r _ _ => exact ⟨[(c, r)], by simp [St.ret, upd_same]⟩
    | lock _ _ => exact ⟨[], rfl⟩
    | link _ => exact ⟨[], rfl⟩
    | up _ => exact ⟨[], rfl⟩
    | unlock _ => exact ⟨[], rfl⟩
    | unlockRet _ => exact ⟨[_], by simp [St.ret, upd_same, St.set]; rfl⟩
  · exact ⟨[], (ht.other h).2⟩

/-- The calls that goroutine `t` has finished after those in `log0` begin with `c`, which has returned something with `R`. -/
def Finished (s : St) (t : Nat) (c : Call) (log0 : List (Call × Option Nat)) (R : Option Nat → Prop) : Prop :=
  ∃ later r, s.log t = later ++ (c, r) :: log0 ∧ R r

theorem Finished.next {s s' : St} {t u : Nat} {c : Call} {log0 : List (Call × Option Nat)} {R : Option Nat → Prop} (ht : Tr s u s')
    (h : Finished s t c log0 R) : Finished s' t c log0 R := by
  obtain ⟨later, r, h1, h2⟩ := h
  obtain ⟨pre, h3⟩ := ht.log (t := t)
  exact ⟨pre ++ later, r, by rw [h3, h1, List.append_assoc], h2⟩

theorem Finished.result {s : St} {t : Nat} {c : Call} {log0 later : List (Call × Option Nat)} {R : Option Nat → Prop} {r : Option Nat}
    (h : Finished s t c log0 R) (hl : s.log t = later ++ (c, r) :: log0) : R r := by
  obtain ⟨later', r', h1, h2⟩ := h
  rw [hl] at h1
  have := (List.append_inj' h1 (by simp)).2
  cases this
  exact h2

/-- A statement about a running call leads to one about its result. -/
theorem returns_of {P : St → Prop} {R : Option Nat → Prop} {t : Nat} {c : Call} {log0 : List (Call × Option Nat)}
    (hlog : ∀ s, P s → s.log t = log0)
    (hstep : ∀ s u k s', Inv s → P s → s.step u k = some s' → P s' ∨ Finished s' t c log0 R)
    {s s' : St} {l : List (Nat × Call)} (hi : Inv s) (hr : s.run l = some s') (hp : P s ∨ Finished s t c log0 R) {r : Option Nat}
    {later : List (Call × Option Nat)} (hl : s'.log t = later ++ (c, r) :: log0) : R r := by
  induction l generalizing s with
  | nil =>
    cases hr
    rcases hp with hp | hp
    · have := hlog _ hp
      rw [hl] at this
      have := congrArg List.length this
      simp only [List.length_append, List.length_cons] at this
      omega
    · exact hp.result hl
  | cons e l ih =>
    obtain ⟨s1, h1, h2⟩ := run_cons hr
    refine ih (Inv.next hi h1).1 h2 ?_
    rcases hp with hp | hp
    · exact hstep s _ _ s1 hi hp h1
    · exact Or.inr (hp.next (hi.tr h1))

/-! ## `GetNode` -/

/-- What `GetNode` finds without others. -/
def look (s : St) : Nat → List Bytes → Option Nat
  | a, [] => some a
  | a, n :: l => (s.grep a n).bind fun d => look s d l

theorem look_grows {s s' : St} (hg : Grows s s') (hl : Low s) {a x : Nat} {l : List Bytes} (h : look s a l = some x) : look s' a l = some x := by
  induction l generalizing a with
  | nil => exact h
  | cons n l ih =>
    simp only [look] at h ⊢
    cases hd : s.grep a n with
    | none => rw [hd] at h; cases h
    | some d =>
      rw [hd] at h
      rw [grep_grows hg hl hd]
      exact ih h

theorem look_of_first {s : St} {a x : Nat} {l : List Bytes} (h : First s a l x) : look s a l = some x := by
  induction h with
  | here a => rfl
  | @down a d x before after l hd hb _ ih =>
    simp only [look]
    have : s.grep a (s.node d).name = some d := by
      unfold St.grep
      rw [hd, List.find?_append]
      have : before.find? (fun e => decide ((s.node e).name = (s.node d).name)) = none := by
        rw [List.find?_eq_none]
        intro e he
        simp [hb e he]
      rw [this]
      simp
    rw [this]
    exact ih

theorem first_of_look {s : St} {a x : Nat} {l : List Bytes} (h : look s a l = some x) : First s a l x := by
  induction l generalizing a with
  | nil => cases h; exact .here _
  | cons n l ih =>
    simp only [look] at h
    cases hd : s.grep a n with
    | none => rw [hd] at h; cases h
    | some d =>
      rw [hd] at h
      unfold St.grep at hd
      obtain ⟨h1, before, after, h2, h3⟩ := List.find?_eq_some_iff_append.1 hd
      have hn : (s.node d).name = n := by simpa using h1
      subst hn
      exact .down h2 (fun e he => by simpa using h3 e he) (ih h)

theorem look_of_path {s : St} (hd : Distinct s) {a x : Nat} {l : List Bytes} (h : Path s a l x) : look s a l = some x := by
  induction h with
  | here a => rfl
  | @down a d x l hm _ ih =>
    simp only [look]
    cases hg : s.grep a (s.node d).name with
    | none => exact absurd rfl (grep_none hg hm)
    | some e =>
      obtain ⟨h1, h2⟩ := grep_some hg
      have := hd a e d h1 hm h2
      subst this
      exact ih

/-- A `GetNode` that is running and will find `x`. -/
def Getting (t : Nat) (c : Call) (log0 : List (Call × Option Nat)) (x : Nat) (s : St) : Prop :=
  s.log t = log0 ∧ ∃ cur n rest, s.pc t = .get c cur n rest ∧ look s cur (n :: rest) = some x

theorem getting_step {t : Nat} {c : Call} {log0 : List (Call × Option Nat)} {x : Nat} (s : St) (u : Nat) (k : Call) (s' : St) (hi : Inv s)
    (hp : Getting t c log0 x s) (hs : s.step u k = some s') : Getting t c log0 x s' ∨ Finished s' t c log0 (· = some x) := by
  obtain ⟨h0, cur, n, rest, h1, h2⟩ := hp
  have ht := hi.tr hs
  by_cases htu : t = u
  · subst htu
    simp only [St.step, h1] at hs
    cases hs
    simp only [look] at h2
    cases hd : s.grep cur n with
    | none => rw [hd] at h2; cases h2
    | some d =>
      rw [hd] at h2
      cases rest with
      | nil =>
        exact Or.inr ⟨[], some d, by simp [St.got, St.ret, upd_same, h0], h2⟩
      | cons m rest => exact Or.inl ⟨h0, d, m, rest, by simp [St.got, St.goto, upd_same], look_grows (by rw [← hd]; exact ht.grows hi) hi.low h2⟩
  · obtain ⟨e1, e2⟩ := ht.other htu
    exact Or.inl ⟨by rw [e2, h0], cur, n, rest, by rw [e1, h1], look_grows (ht.grows hi) hi.low h2⟩

theorem get_returns {s s' : St} (hi : Inv s) {t self x : Nat} {tag : Bytes} {names : List Bytes} {l : List (Nat × Call)} {r : Option Nat}
    (htag : tag ≠ []) (hx : look s self (tag :: names) = some x) (hr : Returns s t (.get self tag names) l s' r) : r = some x := by
  obtain ⟨h0, h1, later, h2⟩ := hr
  obtain ⟨s1, h3, h4⟩ := run_cons h1
  refine returns_of (P := Getting t (.get self tag names) (s.log t) x) (R := (· = some x)) (fun _ h => h.1) getting_step (Inv.next hi h3).1 h4 ?_ h2
  left
  simp only [St.step, h0] at h3
  split at h3
  · cases h3
    simp only [St.begin, if_neg htag]
    exact ⟨rfl, self, tag, names, by simp [St.goto, upd_same], look_grows (grows_pc (g := s.log) (.refl s)) hi.low hx⟩
  · cases h3

/-! ## `FindNode` with one name -/

/-- A `FindNode` that is running and has a node `x` ahead. -/
def Finding (t : Nat) (c : Call) (log0 : List (Call × Option Nat)) (x : Nat) (s : St) : Prop :=
  s.log t = log0 ∧ x < s.next ∧ ∃ fs, s.pc t = .find c fs ∧ ∃ f ∈ fs, ∃ d ∈ f.1, ∃ l, Path s d l x

theorem finding_step {t self : Nat} {n : Bytes} {log0 : List (Call × Option Nat)} {x : Nat} (s : St) (u : Nat) (k : Call) (s' : St) (hi : Inv s)
    (hp : Finding t (.find self [n]) log0 x s ∧ (s.node x).name = n) (hs : s.step u k = some s') :
    Finding t (.find self [n]) log0 x s' ∧ (s'.node x).name = n ∨ Finished s' t (.find self [n]) log0 (fun r => ∃ y, r = some y) := by
  obtain ⟨⟨h0, hx, fs, h1, f, hf, d, hd, l, hl⟩, hn⟩ := hp
  have ht := hi.tr hs
  have hg := ht.grows hi
  have hn' : (s'.node x).name = n := (hg.name x hx).trans hn
  by_cases htu : t = u
  · subst htu
    have hpc := hi.pcs t
    rw [h1] at hpc
    obtain ⟨self', names, hc, _, hfr⟩ := hpc
    cases hc
    simp only [St.step, h1] at hs
    cases hs
    rcases fs with _ | ⟨⟨_ | ⟨e, es⟩, ns⟩, fs⟩
    · cases hf
    · left
      refine ⟨⟨h0, hx, fs, by simp [St.findStep, St.goto, upd_same], f, ?_, d, hd, l, hl.grows hg hi.low⟩, hn'⟩
      rcases List.mem_cons.1 hf with rfl | hf
      · cases hd
      · exact hf
    · obtain ⟨pre, _, _, q1, q2, _⟩ := hfr _ (List.mem_cons_self ..)
      have hns : ns = [n] := by
        rcases pre with _ | ⟨a, pre⟩
        · exact q1.symm
        · simp only [List.cons_append, List.cons.injEq, List.nil_eq, List.append_eq_nil_iff] at q1
          exact absurd q1.2.2 q2
      subst hns
      simp only [St.findStep] at hg hn' ⊢
      by_cases he : (s.node e).name = n
      · rw [if_pos he, if_pos trivial]
        exact Or.inr ⟨[], some e, by simp [St.ret, upd_same, h0], e, rfl⟩
      · rw [if_neg he] at hg hn' ⊢
        left
        refine ⟨⟨h0, hx, _, by simp [St.goto, upd_same]; rfl, ?_⟩, hn'⟩
        rcases List.mem_cons.1 hf with rfl | hf
        · rcases List.mem_cons.1 hd with rfl | hd
          · cases hl with
            | here => exact absurd hn he
            | down hm hl => exact ⟨_, List.mem_cons_self .., _, hm, _, hl.grows hg hi.low⟩
          · exact ⟨_, List.mem_cons_of_mem _ (List.mem_cons_self ..), d, hd, l, hl.grows hg hi.low⟩
        · exact ⟨f, List.mem_cons_of_mem _ (List.mem_cons_of_mem _ hf), d, hd, l, hl.grows hg hi.low⟩
  · obtain ⟨e1, e2⟩ := ht.other htu
    exact Or.inl ⟨⟨by rw [e2, h0], Nat.lt_of_lt_of_le hx hg.next, fs, by rw [e1, h1], f, hf, d, hd, l, hl.grows hg hi.low⟩, hn'⟩

theorem find_returns {s s' : St} (hi : Inv s) {t self x : Nat} {n : Bytes} {l : List (Nat × Call)} {r : Option Nat}
    (hb : Below s self x) (hn : (s.node x).name = n) (hr : Returns s t (.find self [n]) l s' r) : ∃ y, r = some y := by
  obtain ⟨h0, h1, later, h2⟩ := hr
  obtain ⟨s1, h3, h4⟩ := run_cons h1
  refine returns_of (P := fun s1 => Finding t (.find self [n]) (s.log t) x s1 ∧ (s1.node x).name = n) (R := fun r => ∃ y, r = some y)
    (fun _ h => h.1.1) finding_step (Inv.next hi h3).1 h4 ?_ h2
  left
  have hg := (Inv.next hi h3).2
  simp only [St.step, h0] at h3
  split at h3
  · rename_i hlt
    cases h3
    obtain ⟨p, hp1, hp2⟩ := hb
    have hx := hp2.old hi.low hlt
    cases hp2 with
    | here => exact absurd rfl hp1
    | down hm hp =>
      refine ⟨⟨rfl, Nat.lt_of_lt_of_le hx hg.next, _, by simp [St.begin, St.goto, upd_same]; rfl, _, List.mem_singleton_self _, _, hm, _, hp.grows hg hi.low⟩, ?_⟩
      exact (hg.name x hx).trans hn
  · cases h3

/-! ## Without two additions of the same child -/

/-- No two children of the same name, and none of a name that is about to be added. -/
def Clean (s : St) : Prop := Distinct s ∧ ∀ t p n, Adding s t p n → ∀ d ∈ (s.node p).downs, (s.node d).name ≠ n

theorem Clean.tr {s s' : St} (hi : Inv s) {t : Nat} (ht : Tr s t s') (ha : Apart s) (h : Clean s) : Clean s' := by
  -- memory as before
  have same : ∀ {s1 : St}, (∀ x, (s1.node x).downs = (s.node x).downs) → (∀ x, (s1.node x).name = (s.node x).name) →
      (∀ u p n, Adding s1 u p n → Adding s u p n ∨ s.grep p n = none) → Clean s1 := by
    intro s1 hd hn hadd
    refine ⟨fun p c d hc hdd hcd => ?_, fun u p n hu d hdm => ?_⟩
    · rw [hd] at hc hdd
      rw [hn, hn] at hcd
      exact h.1 p c d hc hdd hcd
    · rw [hd] at hdm
      rw [hn]
      rcases hadd u p n hu with hu | hu
      · exact h.2 u p n hu d hdm
      · exact grep_none hu hdm
  have hname : ∀ {a : Nat} {n : Node}, n.name = (s.node a).name → ∀ x, ((s.set a n).node x).name = (s.node x).name := by
    intro a n hn x
    by_cases hx : x = a
    · subst hx; simp [St.set, upd_same, hn]
    · simp [St.set, upd_other _ _ hx]
  have others : ∀ {q : PC} {u p : Nat} {n : Bytes}, (∃ c rest, upd s.pc t q u = .want c p n rest ∨ upd s.pc t q u = .locked c p n rest) →
      u = t ∧ (∃ c rest, q = .want c p n rest ∨ q = .locked c p n rest) ∨ Adding s u p n := by
    intro q u p n hq
    by_cases hu : u = t
    · subst hu
      rw [upd_same] at hq
      exact Or.inl ⟨rfl, hq⟩
    · rw [upd_other _ _ hu] at hq
      exact Or.inr hq
  cases ht with
  | @goto q _ h2 _ h4 =>
    refine same (fun _ => rfl) (fun _ => rfl) fun u p n hu => ?_
    rcases others (q := q) hu with ⟨_, c, rest, hq | hq⟩ | hu
    · exact Or.inr (h4 c p n rest hq)
    · rw [hq] at h2; cases h2
    · exact Or.inl hu
  | ret _ _ =>
    refine same (fun _ => rfl) (fun _ => rfl) fun u p n hu => ?_
    rcases others (q := .idle) hu with ⟨_, c, rest, hq | hq⟩ | hu
    · cases hq
    · cases hq
    · exact Or.inl hu
  | lock hpc _ =>
    refine same (set_downs rfl) (hname rfl) fun u p n hu => ?_
    rcases others hu with ⟨rfl, c, rest, hq | hq⟩ | hu
    · cases hq
    · cases hq; exact Or.inl ⟨_, _, Or.inl hpc⟩
    · exact Or.inl hu
  | up hpc =>
    refine same (set_downs rfl) (hname rfl) fun u p n hu => ?_
    rcases others hu with ⟨rfl, c, rest, hq | hq⟩ | hu
    · cases hq
    · cases hq
    · exact Or.inl hu
  | unlock hpc =>
    refine same (set_downs rfl) (hname rfl) fun u p n hu => ?_
    rcases others hu with ⟨rfl, c, rest, hq | hq⟩ | hu
    · cases hq
    · cases hq
    · exact Or.inl hu
  | unlockRet hpc =>
    refine same (set_downs rfl) (hname rfl) fun u p n hu => ?_
    rcases others (q := .idle) hu with ⟨rfl, c, rest, hq | hq⟩ | hu
    · cases hq
    · cases hq
    · exact Or.inl hu
  | @link c cur n rest hpc =>
    have hc := cur_lt hi hpc
    have hm : ∀ x d, d ∈ ((s.link cur n).node x).downs ↔ _ := link_downs hc hi.low
    have hadd : Adding s t cur n := ⟨c, rest, Or.inr hpc⟩
    have hnew : ((s.link cur n).node s.next).name = n := by
      simp [St.link, upd_other _ _ (Nat.ne_of_gt hc), upd_same, newNode]
    have hold : ∀ d, d < s.next → ((s.link cur n).node d).name = (s.node d).name := (grows_link cur n hc hi.low).name
    refine ⟨fun p x y hx hy hxy => ?_, fun u p m hu d hd => ?_⟩
    · have hxy : ((s.link cur n).node x).name = ((s.link cur n).node y).name := hxy
      rcases (hm p x).1 hx with hx | ⟨hp, hx⟩ <;> rcases (hm p y).1 hy with hy | ⟨hp', hy⟩
      · rw [hold x (hi.low _ _ hx).2, hold y (hi.low _ _ hy).2] at hxy
        exact h.1 p x y hx hy hxy
      · rw [hy, hold x (hi.low _ _ hx).2, hnew] at hxy
        exact absurd hxy (h.2 t p n (hp' ▸ hadd) x hx)
      · rw [hx, hold y (hi.low _ _ hy).2, hnew] at hxy
        exact absurd hxy.symm (h.2 t p n (hp ▸ hadd) y hy)
      · exact hx.trans hy.symm
    · show ((s.link cur n).node d).name ≠ m
      rcases others hu with ⟨rfl, c, rest, hq | hq⟩ | hu'
      · cases hq
      · cases hq
      · rcases (hm p d).1 hd with hd | ⟨rfl, rfl⟩
        · rw [hold d (hi.low _ _ hd).2]
          exact h.2 u p m hu' d hd
        · rw [hnew]
          rintro rfl
          have := ha t u p n hadd hu'
          subst this
          obtain ⟨c', rest', hq | hq⟩ := hu <;> simp [St.goto, upd_same] at hq

theorem runApart_clean {s s' : St} {l : List (Nat × Call)} (hr : RunApart s l s') (hi : Inv s) (h : Clean s) :
    s.run l = some s' ∧ Clean s' := by
  induction hr with
  | done _ => exact ⟨rfl, h⟩
  | step ha hs _ ih =>
    obtain ⟨h1, h2⟩ := ih (Inv.next hi hs).1 (h.tr hi (hi.tr hs) ha)
    exact ⟨by rw [St.run, hs]; exact h1, h2⟩

theorem Clean.init {s : St} (h : s.Init) (hd : Distinct s) : Clean s :=
  ⟨hd, fun t p n hu => by obtain ⟨c, rest, hu | hu⟩ := hu <;> rw [h.idle] at hu <;> cases hu⟩

end Verif.TreeMany
