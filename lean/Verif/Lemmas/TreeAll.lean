import Verif.Spec.TreeAll
/-!
# Invariants of trees that change while they are read
-/
set_option linter.unusedSimpArgs false
set_option linter.unusedVariables false

namespace Verif.TreeAll

theorem upd_same {α : Type} (f : Nat → α) (k : Nat) (v : α) : upd f k v k = v := by simp [upd]
theorem upd_other {α : Type} (f : Nat → α) {k i : Nat} (v : α) (h : i ≠ k) : upd f k v i = f i := by simp [upd, h]

/-! ## Who is whose child -/

/-- The goroutine has made `c` below `p` and not yet set its `Up`. -/
def Pending : PC → Nat → Nat → Prop
  | .appended _ p' c' _ _, p, c => p' = p ∧ c' = c
  | .linked _ p' c' _, p, c => p' = p ∧ c' = c
  | _, _, _ => False

/-- The goroutine holds the lock of the node. -/
def Holds : PC → Nat → Prop
  | .locked _ p _ _, a => p = a
  | .appended _ p _ _ _, a => p = a
  | .linked _ p _ _, a => p = a
  | .shift _ p _, a => p = a
  | .unlock _ p _ _, a => p = a
  | _, _ => False

theorem Pending.holds {q : PC} {p c : Nat} (h : Pending q p c) : Holds q p := by
  cases q <;> first | exact h.elim | exact h.1

/-- `c` was made as a child of `p`. -/
def Kid (s : St) (p c : Nat) : Prop := p < c ∧ c < s.next ∧ ((s.node c).up = some p ∨ ∃ t, Pending (s.pc t) p c)

/-- From `a` one comes to `x` through nodes that were made as children, of these names. -/
inductive Chain (s : St) : Nat → List Bytes → Nat → Prop
  | here (a : Nat) : Chain s a [] a
  | down {a d x : Nat} {l : List Bytes} : Kid s a d → Chain s d l x → Chain s a ((s.node d).name :: l) x

/-- The memory of a later state. -/
structure Grows (s s' : St) : Prop where
  next : s.next ≤ s'.next
  name : ∀ a, a < s.next → (s'.node a).name = (s.node a).name
  kid : ∀ p c, Kid s p c → Kid s' p c
  made : ∀ a, a < s.next → (s.node a).made ≤ (s'.node a).made
  cells : ∀ a k, a < s.next → k < (s.node a).made → ((s.node a).cells k).length ≤ ((s'.node a).cells k).length

theorem Grows.refl (s : St) : Grows s s :=
  ⟨Nat.le_refl _, fun _ _ => rfl, fun _ _ h => h, fun _ _ => Nat.le_refl _, fun _ _ _ _ => Nat.le_refl _⟩

theorem Grows.trans {s s' s'' : St} (h : Grows s s') (h' : Grows s' s'') : Grows s s'' :=
  ⟨Nat.le_trans h.next h'.next, fun a ha => (h'.name a (Nat.lt_of_lt_of_le ha h.next)).trans (h.name a ha),
    fun p c hk => h'.kid p c (h.kid p c hk),
    fun a ha => Nat.le_trans (h.made a ha) (h'.made a (Nat.lt_of_lt_of_le ha h.next)),
    fun a k ha hk => Nat.le_trans (h.cells a k ha hk) (h'.cells a k (Nat.lt_of_lt_of_le ha h.next) (Nat.lt_of_lt_of_le hk (h.made a ha)))⟩

theorem Chain.grows {s s' : St} (hg : Grows s s') {a x : Nat} {l : List Bytes} (h : Chain s a l x) : Chain s' a l x := by
  induction h with
  | here a => exact .here a
  | down hd _ ih =>
    rw [← hg.name _ hd.2.1]
    exact .down (hg.kid _ _ hd) ih

theorem Chain.append {s : St} {a x y : Nat} {l l' : List Bytes} (h : Chain s a l x) (h' : Chain s x l' y) : Chain s a (l ++ l') y := by
  induction h with
  | here a => exact h'
  | down hd _ ih => exact .down hd (ih h')

theorem Chain.snoc {s : St} {a x d : Nat} {l : List Bytes} (h : Chain s a l x) (hd : Kid s x d) {n : Bytes} (hn : (s.node d).name = n) :
    Chain s a (l ++ [n]) d := by
  subst hn
  exact h.append (.down hd (.here d))

theorem Chain.old {s : St} {a x : Nat} {l : List Bytes} (h : Chain s a l x) (ha : a < s.next) : x < s.next := by
  induction h with
  | here a => exact ha
  | down hd _ ih => exact ih hd.2.1

/-! ## The invariant -/

/-- What a call has returned. -/
def Result (s : St) : Call → Option Nat → Prop
  | .add self tag names, r => self < s.next ∧ ∃ x, r = some x ∧ Chain s self (tag :: names) x
  | .get self tag names, r => self < s.next ∧ ∀ x, r = some x → if tag = [] then x = self else Chain s self (tag :: names) x
  | .find self names, r => self < s.next ∧ ∀ x, r = some x → ∃ l, Chain s self l x ∧ names.Sublist l ∧ l.getLast? = names.getLast?
  | .del self _, r => self < s.next ∧ r = none

/-- A header that was read. -/
def HeadOk (s : St) (a arr len : Nat) : Prop := a < s.next ∧ arr < (s.node a).made ∧ len ≤ ((s.node a).cells arr).length

/-- The names that `FindNode` still looks for below `p`. -/
def RestOk (s : St) (self : Nat) (names : List Bytes) (p : Nat) (rest : List Bytes) : Prop :=
  ∃ pre l, names = pre ++ rest ∧ rest ≠ [] ∧ Chain s self l p ∧ pre.Sublist l

/-- A loop of `FindNode`. -/
def FrameOk (s : St) (self : Nat) (names : List Bytes) (f : Frame) : Prop :=
  RestOk s self names f.node f.names ∧ HeadOk s f.node f.arr f.len

/-- The names that `AddNodes` or `GetNode` still has to go through from `cur`. -/
def WayOk (s : St) (c : Call) (cur : Nat) (n : Bytes) (rest : List Bytes) : Prop :=
  ∃ self tag names pre, (c = .add self tag names ∨ c = .get self tag names ∧ tag ≠ []) ∧ tag :: names = pre ++ n :: rest ∧
    Chain s self pre cur ∧ self < s.next

/-- The same, only for `AddNodes`. -/
def AddOk (s : St) (c : Call) (cur : Nat) (n : Bytes) (rest : List Bytes) : Prop :=
  ∃ self tag names pre, c = .add self tag names ∧ tag :: names = pre ++ n :: rest ∧ Chain s self pre cur ∧ self < s.next

/-- What holds where a goroutine is, apart from what the lock protects. -/
def PCok (s : St) : PC → Prop
  | .idle => True
  | .look c cur n rest => WayOk s c cur n rest
  | .scan c cur n rest arr len _ => WayOk s c cur n rest ∧ HeadOk s cur arr len
  | .want c cur n rest | .locked c cur n rest => AddOk s c cur n rest ∨ c = .del cur n ∧ rest = [] ∧ cur < s.next
  | .appended c cur child _ rest | .linked c cur child rest => Kid s cur child ∧ AddOk s c cur (s.node child).name rest
  | .shift c cur _ => (∃ n, c = .del cur n) ∧ cur < s.next
  | .unlock c cur r rest => (∃ n, c = .del cur n ∧ r = none ∧ cur < s.next) ∨
      ∃ child, r = some child ∧ Kid s cur child ∧ AddOk s c cur (s.node child).name rest
  | .enter c d ns fs => ∃ self names, c = .find self names ∧ self < s.next ∧ RestOk s self names d ns ∧ ∀ f ∈ fs, FrameOk s self names f
  | .find c fs => ∃ self names, c = .find self names ∧ self < s.next ∧ ∀ f ∈ fs, FrameOk s self names f
  | .panic _ => False

theorem Result.grows {s s' : St} (hg : Grows s s') {c : Call} {r : Option Nat} (h : Result s c r) : Result s' c r := by
  cases c with
  | add self tag names =>
    obtain ⟨h1, x, h2, h3⟩ := h
    exact ⟨Nat.lt_of_lt_of_le h1 hg.next, x, h2, h3.grows hg⟩
  | get self tag names =>
    refine ⟨Nat.lt_of_lt_of_le h.1 hg.next, fun x hx => ?_⟩
    have := h.2 x hx
    split at this
    · rename_i ht
      rw [if_pos ht]
      exact this
    · rename_i ht
      rw [if_neg ht]
      exact this.grows hg
  | find self names =>
    refine ⟨Nat.lt_of_lt_of_le h.1 hg.next, fun x hx => ?_⟩
    obtain ⟨l, h1, h2⟩ := h.2 x hx
    exact ⟨l, h1.grows hg, h2⟩
  | del self n => exact ⟨Nat.lt_of_lt_of_le h.1 hg.next, h.2⟩

theorem HeadOk.grows {s s' : St} (hg : Grows s s') {a arr len : Nat} (h : HeadOk s a arr len) : HeadOk s' a arr len :=
  ⟨Nat.lt_of_lt_of_le h.1 hg.next, Nat.lt_of_lt_of_le h.2.1 (hg.made a h.1), Nat.le_trans h.2.2 (hg.cells a arr h.1 h.2.1)⟩

theorem RestOk.grows {s s' : St} (hg : Grows s s') {self p : Nat} {names rest : List Bytes} (h : RestOk s self names p rest) :
    RestOk s' self names p rest := by
  obtain ⟨pre, l, h1, h2, h3, h4⟩ := h
  exact ⟨pre, l, h1, h2, h3.grows hg, h4⟩

theorem FrameOk.grows {s s' : St} (hg : Grows s s') {self : Nat} {names : List Bytes} {f : Frame} (h : FrameOk s self names f) :
    FrameOk s' self names f := ⟨h.1.grows hg, h.2.grows hg⟩

theorem WayOk.grows {s s' : St} (hg : Grows s s') {c : Call} {cur : Nat} {n : Bytes} {rest : List Bytes} (h : WayOk s c cur n rest) :
    WayOk s' c cur n rest := by
  obtain ⟨self, tag, names, pre, h1, h2, h3, h4⟩ := h
  exact ⟨self, tag, names, pre, h1, h2, h3.grows hg, Nat.lt_of_lt_of_le h4 hg.next⟩

theorem AddOk.grows {s s' : St} (hg : Grows s s') {c : Call} {cur : Nat} {n : Bytes} {rest : List Bytes} (h : AddOk s c cur n rest) :
    AddOk s' c cur n rest := by
  obtain ⟨self, tag, names, pre, h1, h2, h3, h4⟩ := h
  exact ⟨self, tag, names, pre, h1, h2, h3.grows hg, Nat.lt_of_lt_of_le h4 hg.next⟩

theorem AddOk.way {s : St} {c : Call} {cur : Nat} {n : Bytes} {rest : List Bytes} (h : AddOk s c cur n rest) : WayOk s c cur n rest := by
  obtain ⟨self, tag, names, pre, h1, h2⟩ := h
  exact ⟨self, tag, names, pre, .inl h1, h2⟩

theorem AddOk.old {s : St} {c : Call} {cur : Nat} {n : Bytes} {rest : List Bytes} (h : AddOk s c cur n rest) : cur < s.next := by
  obtain ⟨self, tag, names, pre, _, _, h3, h4⟩ := h
  exact h3.old h4

theorem WayOk.old {s : St} {c : Call} {cur : Nat} {n : Bytes} {rest : List Bytes} (h : WayOk s c cur n rest) : cur < s.next := by
  obtain ⟨self, tag, names, pre, _, _, h3, h4⟩ := h
  exact h3.old h4

theorem PCok.grows {s s' : St} (hg : Grows s s') {p : PC} (h : PCok s p) : PCok s' p := by
  cases p with
  | idle => exact trivial
  | look c cur n rest => exact WayOk.grows hg h
  | scan c cur n rest arr len idx => exact ⟨WayOk.grows hg h.1, HeadOk.grows hg h.2⟩
  | want c cur n rest =>
    rcases h with h | ⟨h1, h2, h3⟩
    · exact .inl (h.grows hg)
    · exact .inr ⟨h1, h2, Nat.lt_of_lt_of_le h3 hg.next⟩
  | locked c cur n rest =>
    rcases h with h | ⟨h1, h2, h3⟩
    · exact .inl (h.grows hg)
    · exact .inr ⟨h1, h2, Nat.lt_of_lt_of_le h3 hg.next⟩
  | appended c cur child arr rest =>
    refine ⟨hg.kid _ _ h.1, ?_⟩
    rw [hg.name _ h.1.2.1]
    exact h.2.grows hg
  | linked c cur child rest =>
    refine ⟨hg.kid _ _ h.1, ?_⟩
    rw [hg.name _ h.1.2.1]
    exact h.2.grows hg
  | shift c cur j => exact ⟨h.1, Nat.lt_of_lt_of_le h.2 hg.next⟩
  | unlock c cur r rest =>
    rcases h with ⟨n, h1, h2, h3⟩ | ⟨child, h1, h2, h3⟩
    · exact .inl ⟨n, h1, h2, Nat.lt_of_lt_of_le h3 hg.next⟩
    · refine .inr ⟨child, h1, hg.kid _ _ h2, ?_⟩
      rw [hg.name _ h2.2.1]
      exact h3.grows hg
  | enter c d ns fs =>
    obtain ⟨self, names, h1, h2, h3, h4⟩ := h
    exact ⟨self, names, h1, Nat.lt_of_lt_of_le h2 hg.next, h3.grows hg, fun f hf => (h4 f hf).grows hg⟩
  | find c fs =>
    obtain ⟨self, names, h1, h2, h4⟩ := h
    exact ⟨self, names, h1, Nat.lt_of_lt_of_le h2 hg.next, fun f hf => (h4 f hf).grows hg⟩
  | panic c => exact h

/-- The children of `p`, also while one of them is being taken out. -/
def Content (s : St) (p : Nat) (L : List Nat) : Prop :=
  ((∀ t c j, s.pc t ≠ .shift c p j) ∧ (s.node p).downs = L) ∨
  ∃ t A x B k, s.pc t = .shift (.del p (s.node x).name) p (A.length + k) ∧ L = A ++ x :: B ∧ k ≤ B.length ∧
    (s.node p).downs = A ++ B.take k ++ (x :: B).drop k ∧ (s.node p).len = (A ++ x :: B).length ∧
    (∀ a ∈ A, (s.node a).name ≠ (s.node x).name) ∧ ∀ a ∈ L, a < s.next

/-- What holds in every state that is reached. -/
structure Inv (s : St) : Prop where
  kid : ∀ p k c, c ∈ (s.node p).cells k → Kid s p c
  pend : ∀ t p c, Pending (s.pc t) p c → (s.node c).up = none
  uniq : ∀ t u p q c, Pending (s.pc t) p c → Pending (s.pc u) q c → p = q
  arr : ∀ p, (s.node p).arr < (s.node p).made
  len : ∀ p, (s.node p).len ≤ ((s.node p).cells (s.node p).arr).length
  locks : ∀ a t, (s.node a).lock = some t ↔ Holds (s.pc t) a
  app : ∀ t c p child arr rest, s.pc t = .appended c p child arr rest →
    ((s.node p).cells arr).take ((s.node p).len + 1) = (s.node p).downs ++ [child] ∧ child ∉ (s.node p).downs ∧ arr < (s.node p).made
  cont : ∀ p, ∃ L, Content s p L ∧ L.Nodup
  pcs : ∀ t, PCok s (s.pc t)
  logs : ∀ t e, e ∈ s.log t → Result s e.1 e.2

theorem Inv.init {s : St} (hi : s.Init) : Inv s where
  kid p k c hc := ⟨(hi.kid p k c hc).1, (hi.kid p k c hc).2.1, .inl (hi.kid p k c hc).2.2⟩
  pend t p c h := by rw [hi.idle] at h; exact h.elim
  uniq t u p q c h := by rw [hi.idle] at h; exact h.elim
  arr := hi.arr
  len := hi.len
  locks a t := by rw [hi.free, hi.idle]; exact ⟨fun h => (by cases h), fun h => h.elim⟩
  app t c p child arr rest h := by rw [hi.idle] at h; cases h
  cont p := ⟨_, .inl ⟨fun t c j h => (by rw [hi.idle] at h; cases h), rfl⟩, hi.nodup p⟩
  pcs t := by rw [hi.idle]; exact trivial
  logs t e h := by rw [hi.log] at h; cases h

theorem Inv.holds_unique {s : St} (i : Inv s) {t u a : Nat} (h : Holds (s.pc t) a) (h' : Holds (s.pc u) a) : t = u := by
  have h1 := (i.locks a t).2 h
  rw [(i.locks a u).2 h'] at h1
  cases h1
  rfl

/-- A child of two nodes does not exist. -/
theorem Inv.kid_one {s : St} (i : Inv s) {p q c : Nat} (h : Kid s p c) (h' : Kid s q c) : p = q := by
  rcases h.2.2 with h1 | ⟨t, h1⟩ <;> rcases h'.2.2 with h2 | ⟨u, h2⟩
  · rw [h1] at h2; cases h2; rfl
  · rw [i.pend u q c h2] at h1; cases h1
  · rw [i.pend t p c h1] at h2; cases h2
  · exact i.uniq t u p q c h1 h2

theorem Node.downs_length {n : Node} (h : n.len ≤ (n.cells n.arr).length) : n.downs.length = n.len := by
  unfold Node.downs
  rw [List.length_take]
  exact Nat.min_eq_left h

/-! ## Steps that change only locks and places -/

/-- The memory is the same, apart from locks. -/
structure SameMem (s s' : St) : Prop where
  next : s'.next = s.next
  name : ∀ a, (s'.node a).name = (s.node a).name
  up : ∀ a, (s'.node a).up = (s.node a).up
  cells : ∀ a, (s'.node a).cells = (s.node a).cells
  made : ∀ a, (s'.node a).made = (s.node a).made
  arr : ∀ a, (s'.node a).arr = (s.node a).arr
  len : ∀ a, (s'.node a).len = (s.node a).len

theorem SameMem.downs {s s' : St} (h : SameMem s s') (a : Nat) : (s'.node a).downs = (s.node a).downs := by
  unfold Node.downs
  rw [h.cells, h.arr, h.len]

/-- Another place, with the same child pending. -/
theorem pending_upd {s s' : St} {t : Nat} {q : PC} (hpc : s'.pc = upd s.pc t q) (hP : ∀ p c, Pending q p c ↔ Pending (s.pc t) p c) (u p c : Nat) :
    Pending (s'.pc u) p c ↔ Pending (s.pc u) p c := by
  rw [hpc]
  by_cases hu : u = t
  · subst hu
    rw [upd_same]
    exact hP p c
  · rw [upd_other _ _ hu]

theorem SameMem.kid {s s' : St} (h : SameMem s s') (hP : ∀ u p c, Pending (s'.pc u) p c ↔ Pending (s.pc u) p c) (p c : Nat) :
    Kid s' p c ↔ Kid s p c := by
  unfold Kid
  rw [h.next, h.up]
  simp only [hP]

theorem SameMem.grows {s s' : St} (h : SameMem s s') (hP : ∀ u p c, Pending (s'.pc u) p c ↔ Pending (s.pc u) p c) : Grows s s' where
  next := Nat.le_of_eq h.next.symm
  name a _ := h.name a
  kid p c hk := (h.kid hP p c).2 hk
  made a _ := Nat.le_of_eq (h.made a).symm
  cells a k _ _ := Nat.le_of_eq (by rw [h.cells])

/-- If no removal begins, goes on or ends at `p`, its children are the same. -/
theorem Content.same {s s' : St} {p : Nat} (hd : (s'.node p).downs = (s.node p).downs) (hl : (s'.node p).len = (s.node p).len)
    (hx : s.next ≤ s'.next) (hn : ∀ a, a < s.next → (s'.node a).name = (s.node a).name)
    (hs : ∀ u c j, s'.pc u = .shift c p j ↔ s.pc u = .shift c p j) {L : List Nat} (h : Content s p L) : Content s' p L := by
  rcases h with ⟨h1, h2⟩ | ⟨t, A, x, B, k, h1, h2, h3, h4, h5, h6, h7⟩
  · exact .inl ⟨fun u c j hu => h1 u c j ((hs u c j).1 hu), hd.trans h2⟩
  · have hxn := hn x (h7 x (by rw [h2]; simp))
    refine .inr ⟨t, A, x, B, k, ?_, h2, h3, hd.trans h4, hl.trans h5, fun a ha => ?_, fun a ha => Nat.lt_of_lt_of_le (h7 a ha) hx⟩
    · rw [hxn]; exact (hs _ _ _).2 h1
    · rw [hxn, hn a (h7 a (by rw [h2]; simp [ha]))]
      exact h6 a ha

theorem shift_upd {s s' : St} {t : Nat} {q : PC} (hpc : s'.pc = upd s.pc t q) {p : Nat} (h1 : ∀ c j, s.pc t ≠ .shift c p j)
    (h2 : ∀ c j, q ≠ .shift c p j) (u : Nat) (c : Call) (j : Nat) : s'.pc u = .shift c p j ↔ s.pc u = .shift c p j := by
  rw [hpc]
  by_cases hu : u = t
  · subst hu
    rw [upd_same]
    exact ⟨fun h => absurd h (h2 c j), fun h => absurd h (h1 c j)⟩
  · rw [upd_other _ _ hu]

theorem holds_upd {s s' : St} {t : Nat} {q : PC} (hpc : s'.pc = upd s.pc t q) {u : Nat} (hu : u ≠ t) : s'.pc u = s.pc u := by
  rw [hpc, upd_other _ _ hu]

/-- Steps that change only locks and places keep the invariant. -/
theorem Inv.still {s s' : St} (i : Inv s) {t : Nat} {q : PC} (hm : SameMem s s') (hpc : s'.pc = upd s.pc t q)
    (hP : ∀ p c, Pending q p c ↔ Pending (s.pc t) p c) (hA : ∀ c p child arr rest, q ≠ .appended c p child arr rest)
    (hlocks : ∀ a u, (s'.node a).lock = some u ↔ Holds (s'.pc u) a)
    (hcont : ∀ p L, Content s p L → Content s' p L) (hq : PCok s q)
    (hlog : ∀ u e, e ∈ s'.log u → e ∈ s.log u ∨ Result s e.1 e.2) : Inv s' ∧ Grows s s' := by
  have hP' := pending_upd hpc hP
  have g := hm.grows hP'
  refine ⟨⟨?_, ?_, ?_, ?_, ?_, hlocks, ?_, ?_, ?_, ?_⟩, g⟩
  · intro p k c hc
    rw [hm.cells] at hc
    exact g.kid p c (i.kid p k c hc)
  · intro u p c hp
    rw [hm.up]
    exact i.pend u p c ((hP' u p c).1 hp)
  · intro u v p q c h1 h2
    exact i.uniq u v p q c ((hP' u p c).1 h1) ((hP' v q c).1 h2)
  · intro p
    rw [hm.arr, hm.made]
    exact i.arr p
  · intro p
    rw [hm.arr, hm.len, hm.cells]
    exact i.len p
  · intro u c p child arr rest h
    by_cases hu : u = t
    · subst hu
      rw [hpc, upd_same] at h
      exact absurd h (hA c p child arr rest)
    · rw [holds_upd hpc hu] at h
      rw [hm.cells, hm.len, hm.downs, hm.made]
      exact i.app u c p child arr rest h
  · intro p
    obtain ⟨L, h1, h2⟩ := i.cont p
    exact ⟨L, hcont p L h1, h2⟩
  · intro u
    by_cases hu : u = t
    · subst hu
      rw [hpc, upd_same]
      exact hq.grows g
    · rw [holds_upd hpc hu]
      exact (i.pcs u).grows g
  · intro u e he
    rcases hlog u e he with h | h
    · exact (i.logs u e h).grows g
    · exact h.grows g

/-- Steps without a lock that write nothing. -/
theorem Inv.quiet {s s' : St} (i : Inv s) {t : Nat} {q : PC} (hn : s'.node = s.node) (hx : s'.next = s.next) (hpc : s'.pc = upd s.pc t q)
    (h1 : ∀ a, ¬ Holds (s.pc t) a) (h2 : ∀ a, ¬ Holds q a) (hq : PCok s q)
    (hlog : ∀ u e, e ∈ s'.log u → e ∈ s.log u ∨ Result s e.1 e.2) :
    Inv s' ∧ Grows s s' ∧ ∀ p L, Content s p L → Content s' p L := by
  have hm : SameMem s s' := ⟨hx, fun _ => by rw [hn], fun _ => by rw [hn], fun _ => by rw [hn], fun _ => by rw [hn], fun _ => by rw [hn],
    fun _ => by rw [hn]⟩
  have hc : ∀ p L, Content s p L → Content s' p L := fun p L h =>
    h.same (hm.downs p) (hm.len p) (Nat.le_of_eq hx.symm) (fun a _ => hm.name a)
      (shift_upd hpc (fun c j e => h1 p (by rw [e]; rfl)) (fun c j e => h2 p (by rw [e]; rfl)))
  obtain ⟨h3, h4⟩ := i.still hm hpc (fun p c => ⟨fun h => absurd h.holds (h2 p), fun h => absurd h.holds (h1 p)⟩)
    (fun c p child arr rest e => h2 p (by rw [e]; rfl)) (fun a u => by
      rw [hn]
      by_cases hu : u = t
      · subst hu
        rw [hpc, upd_same]
        exact ⟨fun h => absurd ((i.locks a u).1 h) (h1 a), fun h => absurd h (h2 a)⟩
      · rw [holds_upd hpc hu]
        exact i.locks a u) hc hq hlog
  exact ⟨h3, h4, hc⟩

/-! ## Taking a child out -/

theorem shift_lists {A B : List Nat} {x k : Nat} (hk : k < B.length) :
    (A ++ B.take k ++ (x :: B).drop k).set (A.length + k) ((A ++ B.take k ++ (x :: B).drop k).getD (A.length + k + 1) 0) =
      A ++ B.take (k + 1) ++ (x :: B).drop (k + 1) := by
  have hB : B = B.take k ++ B[k] :: B.drop (k + 1) := by
    rw [List.getElem_cons_drop, List.take_append_drop]
  have hl : (B.take k).length = k := by rw [List.length_take]; omega
  have hz : (x :: B).drop k = (x :: B)[k]'(by simp; omega) :: B.drop k := by
    rw [List.drop_eq_getElem_cons (by simp; omega)]
    rfl
  have hd : B.drop k = B[k] :: B.drop (k + 1) := List.drop_eq_getElem_cons hk
  have ht : B.take (k + 1) = B.take k ++ [B[k]] := by rw [List.take_append_getElem]
  have h0 : A.length + k = (A ++ B.take k).length := by rw [List.length_append, hl]
  rw [List.drop_succ_cons, ht, hz, hd, h0]
  rw [List.set_append_right _ _ (Nat.le_refl _), Nat.sub_self]
  rw [List.getD_eq_getElem?_getD, List.getElem?_append_right (by omega)]
  simp
  rw [ht, List.getElem?_eq_getElem hk, Option.getD_some, List.append_assoc]
  rfl

theorem shift_last {A B : List Nat} {x : Nat} :
    (A ++ B.take B.length ++ (x :: B).drop B.length).take ((A ++ x :: B).length - 1) = A ++ B := by
  have h : (A ++ x :: B).length - 1 = (A ++ B).length := by simp
  rw [h, List.take_length, List.take_append_of_le_length (Nat.le_refl _), List.take_length]

/-! ## Steps of the goroutine that holds the lock -/

theorem PCok.holds_old {s : St} {q : PC} {a : Nat} (h : PCok s q) (hh : Holds q a) : a < s.next := by
  cases q with
  | locked c p n rest =>
    cases hh
    rcases h with h | h
    · exact h.old
    · exact h.2.2
  | appended c p child arr rest => cases hh; exact h.2.old
  | linked c p child rest => cases hh; exact h.2.old
  | shift c p j => cases hh; exact h.2
  | unlock c p r rest =>
    cases hh
    rcases h with ⟨_, _, _, h⟩ | ⟨_, _, _, h⟩
    · exact h
    · exact h.old
  | _ => exact hh.elim

theorem PCok.pending {s : St} {q : PC} {p c : Nat} (h : PCok s q) (hp : Pending q p c) : Kid s p c := by
  cases q with
  | appended k p' c' arr rest => cases hp.1; cases hp.2; exact h.1
  | linked k p' c' rest => cases hp.1; cases hp.2; exact h.1
  | _ => exact hp.elim

/-- If the goroutine with the lock of `p` is not taking a child out, the children are those seen. -/
theorem Inv.content_seen {s : St} (i : Inv s) {t p : Nat} (hh : Holds (s.pc t) p) (hs : ∀ c j, s.pc t ≠ .shift c p j) {L : List Nat}
    (h : Content s p L) : (∀ u c j, s.pc u ≠ .shift c p j) ∧ (s.node p).downs = L := by
  rcases h with h | ⟨u, A, x, B, k, h1, _⟩
  · exact h
  · have := i.holds_unique hh (u := u) (a := p) (by rw [h1]; rfl)
    subst this
    exact absurd h1 (hs _ _)

/-- The goroutine with the lock of `cur` changes that node. -/
theorem Inv.write {s : St} (i : Inv s) {t cur : Nat} {q : PC} {n' : Node} (hh : Holds (s.pc t) cur) (hh' : Holds q cur)
    (hname : n'.name = (s.node cur).name) (hup : n'.up = (s.node cur).up) (hlock : n'.lock = (s.node cur).lock)
    (hmade : n'.made = (s.node cur).made) (hlen : ∀ k, ((s.node cur).cells k).length ≤ (n'.cells k).length)
    (hkid : ∀ k c, c ∈ n'.cells k → Kid s cur c) (harr : n'.arr < n'.made) (hl : n'.len ≤ (n'.cells n'.arr).length)
    (hP : ∀ p c, Pending q p c ↔ Pending (s.pc t) p c) (hA : ∀ c p child arr rest, q ≠ .appended c p child arr rest)
    (hcont : ∃ L, Content ((s.set cur n').goto t q) cur L ∧ L.Nodup) (hq : PCok s q) :
    Inv ((s.set cur n').goto t q) ∧ Grows s ((s.set cur n').goto t q) ∧
      ∀ p L, p ≠ cur → Content s p L → Content ((s.set cur n').goto t q) p L := by
  generalize hs' : (s.set cur n').goto t q = s' at hcont
  have hpc : s'.pc = upd s.pc t q := by rw [← hs']; rfl
  have hnx : s'.next = s.next := by rw [← hs']; rfl
  have hcur : s'.node cur = n' := by rw [← hs']; exact upd_same _ _ _
  have hoth : ∀ a, a ≠ cur → s'.node a = s.node a := fun a ha => by rw [← hs']; exact upd_other _ _ ha
  have hnm : ∀ a, (s'.node a).name = (s.node a).name := by
    intro a
    by_cases ha : a = cur
    · subst ha; rw [hcur, hname]
    · rw [hoth a ha]
  have hu' : ∀ a, (s'.node a).up = (s.node a).up := by
    intro a
    by_cases ha : a = cur
    · subst ha; rw [hcur, hup]
    · rw [hoth a ha]
  have hP' := pending_upd hpc hP
  have hk : ∀ p c, Kid s' p c ↔ Kid s p c := by
    intro p c
    unfold Kid
    rw [hnx, hu']
    simp only [hP']
  have g : Grows s s' := by
    refine ⟨Nat.le_of_eq hnx.symm, fun a _ => hnm a, fun p c h => (hk p c).2 h, fun a _ => ?_, fun a k _ _ => ?_⟩
    · by_cases ha : a = cur
      · subst ha; rw [hcur, hmade]; exact Nat.le_refl _
      · rw [hoth a ha]; exact Nat.le_refl _
    · by_cases ha : a = cur
      · subst ha; rw [hcur]; exact hlen k
      · rw [hoth a ha]; exact Nat.le_refl _
  have honly : ∀ u p, u ≠ t → Holds (s.pc u) p → p ≠ cur := fun u p hu h e => hu (i.holds_unique (e ▸ h) hh)
  have hq1 : ∀ p, Holds q p → p = cur := by
    intro p hp
    cases q <;> first | exact hp.elim | (exact hp.symm.trans hh')
  have hq2 : ∀ p, Holds (s.pc t) p → p = cur := by
    intro p hp
    cases e : s.pc t <;> rw [e] at hp hh <;> first | exact hp.elim | (exact hp.symm.trans hh)
  have hc : ∀ p L, p ≠ cur → Content s p L → Content s' p L := by
    intro p L hp h
    refine h.same (by rw [hoth p hp]) (by rw [hoth p hp]) (Nat.le_of_eq hnx.symm) (fun a _ => hnm a)
      (shift_upd hpc (fun c j e => hp (hq2 p (by rw [e]; rfl))) (fun c j e => hp (hq1 p (by rw [e]; rfl))))
  refine ⟨⟨?_, ?_, ?_, ?_, ?_, ?_, ?_, ?_, ?_, ?_⟩, g, hc⟩
  · intro p k c hm
    by_cases ha : p = cur
    · subst ha; rw [hcur] at hm; exact (hk _ _).2 (hkid k c hm)
    · rw [hoth p ha] at hm; exact (hk _ _).2 (i.kid p k c hm)
  · intro u p c hp
    rw [hu']
    exact i.pend u p c ((hP' u p c).1 hp)
  · intro u v p q c h1 h2
    exact i.uniq u v p q c ((hP' u p c).1 h1) ((hP' v q c).1 h2)
  · intro p
    by_cases ha : p = cur
    · subst ha; rw [hcur]; exact harr
    · rw [hoth p ha]; exact i.arr p
  · intro p
    by_cases ha : p = cur
    · subst ha; rw [hcur]; exact hl
    · rw [hoth p ha]; exact i.len p
  · intro a u
    have e1 : (s'.node a).lock = (s.node a).lock := by
      by_cases ha : a = cur
      · subst ha; rw [hcur, hlock]
      · rw [hoth a ha]
    rw [e1, i.locks a u]
    by_cases hu : u = t
    · subst hu
      rw [hpc, upd_same]
      exact ⟨fun h => hq2 a h ▸ hh', fun h => hq1 a h ▸ hh⟩
    · rw [holds_upd hpc hu]
  · intro u c p child arr rest h
    by_cases hu : u = t
    · subst hu
      rw [hpc, upd_same] at h
      exact absurd h (hA c p child arr rest)
    · rw [holds_upd hpc hu] at h
      rw [hoth p (honly u p hu (by rw [h]; rfl))]
      exact i.app u c p child arr rest h
  · intro p
    by_cases ha : p = cur
    · subst ha; exact hcont
    · obtain ⟨L, h1, h2⟩ := i.cont p
      exact ⟨L, hc p L ha h1, h2⟩
  · intro u
    by_cases hu : u = t
    · subst hu
      rw [hpc, upd_same]
      exact hq.grows g
    · rw [holds_upd hpc hu]
      exact (i.pcs u).grows g
  · intro u e he
    have : s'.log = s.log := by rw [← hs']; rfl
    rw [this] at he
    exact (i.logs u e he).grows g

/-! ## One step -/

/-- How the children of `p` change in one step. -/
def Evo (s s' : St) (p : Nat) (L L' : List Nat) : Prop :=
  L' = L ∨ (∃ t c child arr rest, s.pc t = .appended c p child arr rest ∧ L' = L ++ [child]) ∨
  ∃ t A x B j, s.pc t = .shift (.del p (s.node x).name) p j ∧ s'.pc t = .unlock (.del p (s.node x).name) p none [] ∧
    L = A ++ x :: B ∧ L' = A ++ B ∧ ∀ a ∈ A, (s.node a).name ≠ (s.node x).name

/-- What a step does. -/
def StepOk (s s' : St) : Prop :=
  Inv s' ∧ Grows s s' ∧ ∀ p L, Content s p L → ∃ L', Content s' p L' ∧ Evo s s' p L L'

theorem StepOk.same {s s' : St} (h : Inv s' ∧ Grows s s' ∧ ∀ p L, Content s p L → Content s' p L) : StepOk s s' :=
  ⟨h.1, h.2.1, fun p L hL => ⟨L, h.2.2 p L hL, .inl rfl⟩⟩

theorem Inv.goto {s : St} (i : Inv s) {t : Nat} {q : PC} (h1 : ∀ a, ¬ Holds (s.pc t) a) (h2 : ∀ a, ¬ Holds q a) (hq : PCok s q) :
    StepOk s (s.goto t q) :=
  .same (i.quiet rfl rfl rfl h1 h2 hq fun _ _ h => .inl h)

theorem ret_log {s : St} {t : Nat} {c : Call} {r : Option Nat} (hr : Result s c r) (u : Nat) (e : Call × Option Nat) (he : e ∈ (s.ret t c r).log u) :
    e ∈ s.log u ∨ Result s e.1 e.2 := by
  by_cases hu : u = t
  · subst hu
    have h : (s.ret u c r).log u = (c, r) :: s.log u := upd_same _ _ _
    rw [h] at he
    rcases List.mem_cons.1 he with h | h
    · subst h; exact .inr hr
    · exact .inl h
  · have h : (s.ret t c r).log u = s.log u := upd_other _ _ hu
    rw [h] at he
    exact .inl he

theorem Inv.ret {s : St} (i : Inv s) {t : Nat} {c : Call} {r : Option Nat} (h1 : ∀ a, ¬ Holds (s.pc t) a) (hr : Result s c r) :
    StepOk s (s.ret t c r) :=
  .same (i.quiet (q := .idle) rfl rfl rfl h1 (fun _ h => h) trivial (ret_log hr))

theorem way_result {s : St} {c : Call} {cur : Nat} {n : Bytes} (h : WayOk s c cur n []) {d : Nat} (hd : Kid s cur d)
    (hn : (s.node d).name = n) : Result s c (some d) := by
  obtain ⟨self, tag, names, pre, h1, h2, h3, h4⟩ := h
  have := h3.snoc hd hn
  rw [← h2] at this
  rcases h1 with rfl | ⟨rfl, ht⟩
  · exact ⟨h4, d, rfl, this⟩
  · refine ⟨h4, fun x hx => ?_⟩
    cases hx
    rw [if_neg ht]
    exact this

theorem way_next {s : St} {c : Call} {cur : Nat} {n m : Bytes} {rest : List Bytes} (h : WayOk s c cur n (m :: rest)) {d : Nat} (hd : Kid s cur d)
    (hn : (s.node d).name = n) : WayOk s c d m rest := by
  obtain ⟨self, tag, names, pre, h1, h2, h3, h4⟩ := h
  exact ⟨self, tag, names, pre ++ [n], h1, by rw [h2, List.append_assoc]; rfl, h3.snoc hd hn, h4⟩

theorem Inv.hit {s : St} (i : Inv s) {t : Nat} {c : Call} {cur d : Nat} {n : Bytes} {rest : List Bytes} (h1 : ∀ a, ¬ Holds (s.pc t) a)
    (hw : WayOk s c cur n rest) (hd : Kid s cur d) (hn : (s.node d).name = n) : StepOk s (s.hit t c d rest) := by
  cases rest with
  | nil => exact i.ret h1 (way_result hw hd hn)
  | cons m rest => exact i.goto h1 (fun _ h => h) (way_next hw hd hn)

theorem Inv.miss {s : St} (i : Inv s) {t : Nat} {c : Call} {cur : Nat} {n : Bytes} {rest : List Bytes} (h1 : ∀ a, ¬ Holds (s.pc t) a)
    (hw : WayOk s c cur n rest) : StepOk s (s.miss t c cur n rest) := by
  obtain ⟨self, tag, names, pre, h2, h3, h4, h5⟩ := hw
  rcases h2 with rfl | ⟨rfl, ht⟩
  · exact i.goto h1 (fun _ h => h) (.inl ⟨self, tag, names, pre, rfl, h3, h4, h5⟩)
  · exact i.ret h1 ⟨h5, fun x hx => by cases hx⟩

theorem Inv.begin {s : St} (i : Inv s) {t : Nat} {c : Call} (h1 : ∀ a, ¬ Holds (s.pc t) a) (hc : c.self < s.next) : StepOk s (s.begin t c) := by
  cases c with
  | add self tag names => exact i.goto h1 (fun _ h => h) ⟨self, tag, names, [], .inl rfl, rfl, .here _, hc⟩
  | get self tag names =>
    unfold St.begin
    dsimp only
    by_cases ht : tag = []
    · rw [if_pos ht]
      refine i.ret h1 ⟨hc, fun x hx => ?_⟩
      cases hx
      rw [if_pos ht]
    · rw [if_neg ht]
      exact i.goto h1 (fun _ h => h) ⟨self, tag, names, [], .inr ⟨rfl, ht⟩, rfl, .here _, hc⟩
  | find self names =>
    unfold St.begin
    dsimp only
    by_cases ht : names = []
    · rw [if_pos ht]
      exact i.ret h1 ⟨hc, fun x hx => by cases hx⟩
    · rw [if_neg ht]
      exact i.goto h1 (fun _ h => h) ⟨self, names, rfl, hc, ⟨[], [], rfl, ht, .here _, .slnil⟩, fun f hf => by cases hf⟩
  | del self n => exact i.goto h1 (fun _ h => h) (.inr ⟨rfl, rfl, hc⟩)

theorem getElem?_lt {l : List Nat} {k d : Nat} (h : l[k]? = some d) : d ∈ l := List.mem_of_getElem? h

theorem Inv.findStep {s : St} (i : Inv s) {t : Nat} {c : Call} {fs : List Frame} (h1 : ∀ a, ¬ Holds (s.pc t) a) (hp : PCok s (.find c fs)) :
    StepOk s (s.findStep t c fs) := by
  obtain ⟨self, names, rfl, h3, h4⟩ := hp
  cases fs with
  | nil => exact i.ret h1 ⟨h3, fun x hx => by cases hx⟩
  | cons f fs =>
    have hf := h4 f (List.mem_cons_self ..)
    have hfs : ∀ g ∈ fs, FrameOk s self names g := fun g hg => h4 g (List.mem_cons_of_mem _ hg)
    unfold St.findStep
    dsimp only
    by_cases hlt : f.idx < f.len
    · rw [if_pos hlt]
      cases hc : ((s.node f.node).cells f.arr)[f.idx]? with
      | none =>
        rw [List.getElem?_eq_none_iff] at hc
        exact absurd (Nat.lt_of_lt_of_le hlt hf.2.2.2) (Nat.not_lt.2 hc)
      | some d =>
        have hk := i.kid _ _ _ (getElem?_lt hc)
        dsimp only
        obtain ⟨⟨pre, l, e1, e2, e3, e4⟩, e5⟩ := hf
        cases hnm : f.names with
        | nil => exact absurd hnm e2
        | cons n ns =>
          rw [hnm] at e1
          dsimp only
          by_cases hn : (s.node d).name = n
          · rw [if_pos hn]
            have hch := e3.snoc hk hn
            have hsub : (pre ++ [n]).Sublist (l ++ [n]) := e4.append (List.Sublist.refl _)
            cases ns with
            | nil =>
              rw [if_pos rfl]
              refine i.ret h1 ⟨h3, fun x hx => ?_⟩
              cases hx
              refine ⟨_, hch, e1 ▸ hsub, ?_⟩
              rw [e1, List.getLast?_concat, List.getLast?_concat]
            | cons m ns =>
              rw [if_neg (by simp)]
              exact i.goto h1 (fun _ h => h) ⟨self, names, rfl, h3,
                ⟨pre ++ [n], l ++ [n], by rw [e1, List.append_assoc]; rfl, by simp, hch, hsub⟩, hfs⟩
          · rw [if_neg hn]
            refine i.goto h1 (fun _ h => h) ⟨self, names, rfl, h3,
              ⟨pre, l ++ [(s.node d).name], e1, by simp, e3.snoc hk rfl, e4.trans (List.sublist_append_left _ _)⟩, fun g hg => ?_⟩
            rcases List.mem_cons.1 hg with rfl | hg
            · refine ⟨⟨pre, l, ?_, ?_, e3, e4⟩, e5⟩
              · dsimp only; rw [e1]
              · dsimp only; first | simp | (rw [hnm]; simp)
            · exact hfs g hg
    · rw [if_neg hlt]
      exact i.goto h1 (fun _ h => h) ⟨self, names, rfl, h3, hfs⟩

/-- Taking and giving back the lock of a node, and going on while holding it. -/
theorem Inv.relock {s s' : St} (i : Inv s) {t cur : Nat} {q : PC} {lk : Option Nat} (hnode : s'.node = upd s.node cur { s.node cur with lock := lk })
    (hnx : s'.next = s.next) (hpc : s'.pc = upd s.pc t q) (hP : ∀ p c, ¬ Pending q p c) (hP0 : ∀ p c, ¬ Pending (s.pc t) p c)
    (hlk : (∀ u, lk = some u ↔ u = t ∧ Holds q cur)) (hfree : ∀ u, u ≠ t → ¬ Holds (s.pc u) cur)
    (hother : ∀ a, a ≠ cur → ¬ Holds q a ∧ ¬ Holds (s.pc t) a)
    (h1 : ∀ c p j, s.pc t ≠ .shift c p j) (h2 : ∀ c p j, q ≠ .shift c p j) (hq : PCok s q)
    (hlog : ∀ u e, e ∈ s'.log u → e ∈ s.log u ∨ Result s e.1 e.2) :
    Inv s' ∧ Grows s s' ∧ ∀ p L, Content s p L → Content s' p L := by
  have hn : ∀ a, s'.node a = if a = cur then { s.node cur with lock := lk } else s.node a := fun a => by rw [hnode]; rfl
  have hm : SameMem s s' := by
    refine ⟨hnx, ?_, ?_, ?_, ?_, ?_, ?_⟩ <;> intro a <;> rw [hn a] <;> split <;> first | rfl | (rename_i e; rw [e])
  have hc : ∀ p L, Content s p L → Content s' p L := fun p L h =>
    h.same (hm.downs p) (hm.len p) (Nat.le_of_eq hnx.symm) (fun a _ => hm.name a) (shift_upd hpc (fun c j => h1 c p j) fun c j => h2 c p j)
  obtain ⟨h3, h4⟩ := i.still hm hpc (fun p c => ⟨fun h => absurd h (hP p c), fun h => absurd h (hP0 p c)⟩)
    (fun c p child arr rest e => hP p child (by rw [e]; exact ⟨rfl, rfl⟩)) (fun a u => by
      by_cases ha : a = cur
      · subst ha
        rw [hn, if_pos rfl]
        dsimp only
        rw [hlk]
        by_cases hu : u = t
        · subst hu
          rw [hpc, upd_same]
          exact ⟨fun h => h.2, fun h => ⟨rfl, h⟩⟩
        · rw [holds_upd hpc hu]
          exact ⟨fun h => absurd h.1 hu, fun h => absurd h (hfree u hu)⟩
      · rw [hn, if_neg ha, i.locks a u]
        by_cases hu : u = t
        · subst hu
          rw [hpc, upd_same]
          exact ⟨fun h => absurd h (hother a ha).2, fun h => absurd h (hother a ha).1⟩
        · rw [holds_upd hpc hu]) hc hq hlog
  exact ⟨h3, h4, hc⟩

theorem Inv.lock {s : St} (i : Inv s) {t : Nat} {c : Call} {cur : Nat} {n : Bytes} {rest : List Bytes} (hpc : s.pc t = .want c cur n rest)
    (hl : (s.node cur).lock = none) : StepOk s ((s.set cur { s.node cur with lock := some t }).goto t (.locked c cur n rest)) := by
  refine .same (i.relock (lk := some t) (cur := cur) rfl rfl rfl (fun p c h => h) (fun p c h => by rw [hpc] at h; exact h)
    (fun u => ⟨fun h => by cases h; exact ⟨rfl, rfl⟩, fun h => by rw [h.1]⟩) (fun u hu h => ?_) (fun a ha => ⟨fun h => ha h.symm, fun h => ?_⟩)
    (fun c p j h => by rw [hpc] at h; cases h) (fun c p j h => by cases h) ?_ fun _ _ h => .inl h)
  · have := (i.locks cur u).2 h
    rw [hl] at this
    cases this
  · rw [hpc] at h; exact h
  · have := i.pcs t
    rw [hpc] at this
    exact this

theorem Inv.unlocked {s : St} (i : Inv s) {t : Nat} {c : Call} {cur : Nat} {r : Option Nat} {rest : List Bytes}
    (hpc : s.pc t = .unlock c cur r rest) {q : PC} (hq : PCok s q) (hh : ∀ a, ¬ Holds q a) {s' : St}
    (hnode : s'.node = upd s.node cur { s.node cur with lock := none }) (hnx : s'.next = s.next) (hpc' : s'.pc = upd s.pc t q)
    (hlog : ∀ u e, e ∈ s'.log u → e ∈ s.log u ∨ Result s e.1 e.2) : StepOk s s' := by
  have hhold : Holds (s.pc t) cur := by rw [hpc]; rfl
  refine .same (i.relock (lk := none) (cur := cur) hnode hnx hpc' (fun p c h => hh _ h.holds) (fun p c h => by rw [hpc] at h; exact h)
    (fun u => ⟨fun h => (by cases h), fun h => absurd h.2 (hh _)⟩) (fun u hu h => hu (i.holds_unique h hhold))
    (fun a ha => ⟨hh a, fun h => ?_⟩) (fun c p j h => by rw [hpc] at h; cases h) (fun c p j h => hh p (by rw [h]; rfl)) hq hlog)
  rw [hpc] at h
  exact ha h.symm

theorem Inv.unlock {s : St} (i : Inv s) {t : Nat} {c : Call} {cur : Nat} {r : Option Nat} {rest : List Bytes}
    (hpc : s.pc t = .unlock c cur r rest) {s' : St}
    (hs : (match r with
      | none => (s.set cur { s.node cur with lock := none }).ret t c none
      | some d => (s.set cur { s.node cur with lock := none }).hit t c d rest) = s') : StepOk s s' := by
  have hp := i.pcs t
  rw [hpc] at hp
  rcases hp with ⟨n, rfl, rfl, h3⟩ | ⟨child, rfl, h2, h3⟩
  · subst hs
    exact i.unlocked hpc (q := .idle) trivial (fun _ h => h) rfl rfl rfl (ret_log (s := s) (t := t) (c := .del cur n) (r := none) ⟨h3, rfl⟩)
  · subst hs
    cases rest with
    | nil =>
      exact i.unlocked hpc (q := .idle) trivial (fun _ h => h) rfl rfl rfl (ret_log (s := s) (t := t) (way_result h3.way h2 rfl))
    | cons m rest =>
      exact i.unlocked hpc (q := .look c child m rest) (way_next h3.way h2 rfl) (fun _ h => h) rfl rfl rfl (fun _ _ h => .inl h)

/-- `DeleteNode` finds nothing. -/
theorem Inv.notFound {s : St} (i : Inv s) {t : Nat} {self : Nat} {name : Bytes} {cur : Nat} {n : Bytes} {rest : List Bytes}
    (hpc : s.pc t = .locked (.del self name) cur n rest) : StepOk s (s.goto t (.unlock (.del self name) cur none rest)) := by
  have hhold : Holds (s.pc t) cur := by rw [hpc]; rfl
  have hp := i.pcs t
  rw [hpc] at hp
  have hdel : Call.del self name = .del cur n ∧ cur < s.next := by
    rcases hp with ⟨_, _, _, _, h, _⟩ | ⟨h1, h2, h3⟩
    · cases h
    · exact ⟨h1, h3⟩
  refine .same (i.relock (lk := (s.node cur).lock) (cur := cur) (q := .unlock (.del self name) cur none rest) ?_ rfl rfl (fun p c h => h)
    (fun p c h => by rw [hpc] at h; exact h) (fun u => ?_) (fun u hu h => hu (i.holds_unique h hhold))
    (fun a ha => ⟨fun h => ha h.symm, fun h => ?_⟩) (fun c p j h => by rw [hpc] at h; cases h) (fun c p j h => by cases h)
    (.inl ⟨n, hdel.1, rfl, hdel.2⟩) fun _ _ h => .inl h)
  · funext a
    by_cases ha : a = cur
    · subst ha; rw [upd_same]; rfl
    · rw [upd_other _ _ ha]; rfl
  · rw [i.locks cur u]
    refine ⟨fun h => ⟨i.holds_unique h hhold, rfl⟩, fun h => h.1 ▸ hhold⟩
  · rw [hpc] at h; exact ha h.symm

theorem findIdx?_split {l : List Nat} {p : Nat → Bool} {j : Nat} (h : l.findIdx? p = some j) :
    ∃ A x B, l = A ++ x :: B ∧ A.length = j ∧ p x = true ∧ ∀ a ∈ A, p a = false := by
  rw [List.findIdx?_eq_some_iff_getElem] at h
  obtain ⟨h1, h2, h3⟩ := h
  refine ⟨l.take j, l[j], l.drop (j + 1), ?_, ?_, h2, fun a ha => ?_⟩
  · rw [List.getElem_cons_drop, List.take_append_drop]
  · rw [List.length_take]; omega
  · obtain ⟨k, hk, rfl⟩ := List.mem_iff_getElem.1 ha
    rw [List.length_take] at hk
    have := h3 k (by omega)
    rw [List.getElem_take]
    simpa using this

/-- `DeleteNode` finds a child. -/
theorem Inv.found {s : St} (i : Inv s) {t : Nat} {self : Nat} {name : Bytes} {cur : Nat} {n : Bytes} {rest : List Bytes} {j : Nat}
    (hpc : s.pc t = .locked (.del self name) cur n rest) (hj : s.index cur n = some j) :
    StepOk s (s.goto t (.shift (.del self name) cur j)) := by
  have hhold : Holds (s.pc t) cur := by rw [hpc]; rfl
  have hp := i.pcs t
  rw [hpc] at hp
  have hdel : Call.del self name = .del cur n ∧ cur < s.next := by
    rcases hp with ⟨_, _, _, _, h, _⟩ | ⟨h1, h2, h3⟩
    · cases h
    · exact ⟨h1, h3⟩
  obtain ⟨A, x, B, e1, e2, e3, e4⟩ := findIdx?_split hj
  rw [hdel.1]
  have hm : SameMem s (s.goto t (.shift (.del cur n) cur j)) := ⟨rfl, fun _ => rfl, fun _ => rfl, fun _ => rfl, fun _ => rfl, fun _ => rfl, fun _ => rfl⟩
  have hpc' : (s.goto t (.shift (.del cur n) cur j)).pc = upd s.pc t (.shift (.del cur n) cur j) := rfl
  have hc : ∀ p L, Content s p L → Content (s.goto t (.shift (.del cur n) cur j)) p L := by
    intro p L hL
    by_cases hp : p = cur
    · subst hp
      obtain ⟨_, h2⟩ := i.content_seen hhold (fun c j h => by rw [hpc] at h; cases h) hL
      have hx : (s.node x).name = n := by simpa using e3
      refine .inr ⟨t, A, x, B, 0, ?_, h2.symm.trans e1, Nat.zero_le _, ?_, ?_, fun a ha => ?_, fun a ha => ?_⟩
      · show upd s.pc t _ t = _
        rw [upd_same]
        show PC.shift (.del p n) p j = .shift (.del p (s.node x).name) p (A.length + 0)
        rw [hx, e2]
        rfl
      · show (s.node p).downs = _
        rw [e1]
        simp
      · show (s.node p).len = _
        rw [← e1, Node.downs_length (i.len p)]
      · show (s.node a).name ≠ (s.node x).name
        rw [hx]
        simpa using e4 a ha
      · rw [← h2] at ha
        exact (i.kid p _ a (List.mem_of_mem_take ha)).2.1
    · refine @Content.same s (s.goto t (.shift (.del cur n) cur j)) p rfl rfl (Nat.le_refl _) (fun _ _ => rfl) (shift_upd hpc' (fun c j h => ?_) fun c j h => ?_) L hL
      · rw [hpc] at h; cases h
      · cases h; exact hp rfl
  obtain ⟨h3, h4⟩ := i.still hm hpc' (fun p c => ⟨fun h => h.elim, fun h => by rw [hpc] at h; exact h.elim⟩) (fun _ _ _ _ _ h => by cases h)
    (fun a u => by
      show (s.node a).lock = some u ↔ _
      rw [i.locks a u]
      by_cases hu : u = t
      · subst hu
        rw [hpc', upd_same, hpc]
        exact Iff.rfl
      · rw [holds_upd hpc' hu]) hc ⟨⟨n, rfl⟩, hdel.2⟩ fun _ _ h => .inl h
  exact .same ⟨h3, h4, hc⟩

/-! ### `append` -/

theorem append_name (n : Node) (x : Nat) (f : Bool) : (n.append x f).name = n.name := by unfold Node.append; split <;> rfl
theorem append_up (n : Node) (x : Nat) (f : Bool) : (n.append x f).up = n.up := by unfold Node.append; split <;> rfl
theorem append_lock (n : Node) (x : Nat) (f : Bool) : (n.append x f).lock = n.lock := by unfold Node.append; split <;> rfl
theorem append_arr (n : Node) (x : Nat) (f : Bool) : (n.append x f).arr = n.arr := by unfold Node.append; split <;> rfl
theorem append_len (n : Node) (x : Nat) (f : Bool) : (n.append x f).len = n.len := by unfold Node.append; split <;> rfl
theorem append_made (n : Node) (x : Nat) (f : Bool) : n.made ≤ (n.append x f).made := by
  unfold Node.append; split
  · exact Nat.le_succ _
  · exact Nat.le_refl _

theorem append_target (n : Node) (x : Nat) (f : Bool) (ha : n.arr < n.made) : n.target f < (n.append x f).made := by
  unfold Node.append Node.target; split
  · exact Nat.lt_succ_self _
  · exact ha

theorem downs_append {n : Node} (hl : n.len ≤ (n.cells n.arr).length) (ha : n.arr < n.made) (x : Nat) (f : Bool) :
    (n.append x f).downs = n.downs := by
  have h1 := Node.downs_length hl
  show ((n.append x f).cells (n.append x f).arr).take (n.append x f).len = _
  rw [append_arr, append_len]
  cases f with
  | true =>
    show (upd n.cells n.made (n.downs ++ [x]) n.arr).take n.len = _
    rw [upd_other _ _ (Nat.ne_of_lt ha)]
    rfl
  | false =>
    show (upd n.cells n.arr (n.downs ++ x :: (n.cells n.arr).drop (n.len + 1)) n.arr).take n.len = _
    rw [upd_same, List.take_append_of_le_length (Nat.le_of_eq h1.symm), ← h1, List.take_length]

theorem take_append {n : Node} (hl : n.len ≤ (n.cells n.arr).length) (x : Nat) (f : Bool) :
    ((n.append x f).cells (n.target f)).take (n.len + 1) = n.downs ++ [x] := by
  have h1 := Node.downs_length hl
  cases f with
  | true =>
    show (upd n.cells n.made (n.downs ++ [x]) n.made).take _ = _
    rw [upd_same, List.take_of_length_le (by simp [h1])]
  | false =>
    show (upd n.cells n.arr (n.downs ++ x :: (n.cells n.arr).drop (n.len + 1)) n.arr).take _ = _
    rw [upd_same]
    have : n.downs ++ x :: (n.cells n.arr).drop (n.len + 1) = (n.downs ++ [x]) ++ (n.cells n.arr).drop (n.len + 1) := by simp
    rw [this, List.take_append_of_le_length (by simp [h1])]
    exact List.take_of_length_le (by simp [h1])

theorem mem_append {n : Node} {x : Nat} {f : Bool} {k c : Nat} (h : c ∈ (n.append x f).cells k) : c ∈ n.cells k ∨ c ∈ n.cells n.arr ∨ c = x := by
  cases f with
  | true =>
    change c ∈ upd n.cells n.made (n.downs ++ [x]) k at h
    by_cases hk : k = n.made
    · subst hk
      rw [upd_same] at h
      rcases List.mem_append.1 h with h | h
      · exact .inr (.inl (List.mem_of_mem_take h))
      · exact .inr (.inr (List.mem_singleton.1 h))
    · rw [upd_other _ _ hk] at h
      exact .inl h
  | false =>
    change c ∈ upd n.cells n.arr (n.downs ++ x :: (n.cells n.arr).drop (n.len + 1)) k at h
    by_cases hk : k = n.arr
    · subst hk
      rw [upd_same] at h
      rcases List.mem_append.1 h with h | h
      · exact .inr (.inl (List.mem_of_mem_take h))
      · rcases List.mem_cons.1 h with h | h
        · exact .inr (.inr h)
        · exact .inl (List.mem_of_mem_drop h)
    · rw [upd_other _ _ hk] at h
      exact .inl h

theorem length_append' {n : Node} (hl : n.len ≤ (n.cells n.arr).length) {x : Nat} {f : Bool} {k : Nat} (hm : k < n.made) :
    (n.cells k).length ≤ ((n.append x f).cells k).length := by
  have h1 := Node.downs_length hl
  cases f with
  | true =>
    show _ ≤ (upd n.cells n.made (n.downs ++ [x]) k).length
    rw [upd_other _ _ (Nat.ne_of_lt hm)]; exact Nat.le_refl _
  | false =>
    show _ ≤ (upd n.cells n.arr (n.downs ++ x :: (n.cells n.arr).drop (n.len + 1)) k).length
    by_cases hk : k = n.arr
    · subst hk
      rw [upd_same, List.length_append, h1, List.length_cons, List.length_drop]
      omega
    · rw [upd_other _ _ hk]; exact Nat.le_refl _

/-- L63-64, up to the write of the cell. -/
theorem Inv.append {s : St} (i : Inv s) {t : Nat} {c : Call} {cur : Nat} {n : Bytes} {rest : List Bytes} (f : Bool)
    (hpc : s.pc t = .locked c cur n rest) (ha : AddOk s c cur n rest) : StepOk s (s.append t c cur n rest f) := by
  have hhold : Holds (s.pc t) cur := by rw [hpc]; rfl
  have hcur := ha.old
  generalize hs' : s.append t c cur n rest f = s'
  have hpc' : s'.pc = upd s.pc t (.appended c cur s.next ((s.node cur).target f) rest) := by rw [← hs']; rfl
  have hnx : s'.next = s.next + 1 := by rw [← hs']; rfl
  have hnc : s'.node cur = (s.node cur).append s.next f := by rw [← hs']; exact upd_same _ _ _
  have hnn : s'.node s.next = newNode n := by
    rw [← hs']
    exact (upd_other _ _ (Nat.ne_of_gt hcur)).trans (upd_same _ _ _)
  have hno : ∀ a, a ≠ cur → a ≠ s.next → s'.node a = s.node a := by
    intro a h1 h2
    rw [← hs']
    exact (upd_other _ _ h1).trans (upd_other _ _ h2)
  have hname : ∀ a, a ≠ s.next → (s'.node a).name = (s.node a).name := by
    intro a h2
    by_cases h1 : a = cur
    · subst h1; rw [hnc, append_name]
    · rw [hno a h1 h2]
  have hup : ∀ a, a ≠ s.next → (s'.node a).up = (s.node a).up := by
    intro a h2
    by_cases h1 : a = cur
    · subst h1; rw [hnc, append_up]
    · rw [hno a h1 h2]
  have hlock : ∀ a, a ≠ s.next → (s'.node a).lock = (s.node a).lock := by
    intro a h2
    by_cases h1 : a = cur
    · subst h1; rw [hnc, append_lock]
    · rw [hno a h1 h2]
  have hdowns : ∀ a, a ≠ s.next → (s'.node a).downs = (s.node a).downs := by
    intro a h2
    by_cases h1 : a = cur
    · subst h1; rw [hnc, downs_append (i.len a) (i.arr a)]
    · rw [hno a h1 h2]
  have hlen : ∀ a, a ≠ s.next → (s'.node a).len = (s.node a).len := by
    intro a h2
    by_cases h1 : a = cur
    · subst h1; rw [hnc, append_len]
    · rw [hno a h1 h2]
  have hpt : ∀ p d, ¬ Pending (s.pc t) p d := by intro p d h; rw [hpc] at h; exact h
  have hpend : ∀ u p d, Pending (s'.pc u) p d → (u = t ∧ p = cur ∧ d = s.next) ∨ (u ≠ t ∧ Pending (s.pc u) p d) := by
    intro u p d h
    by_cases hu : u = t
    · subst hu
      rw [hpc', upd_same] at h
      exact .inl ⟨rfl, h.1.symm, h.2.symm⟩
    · rw [holds_upd hpc' hu] at h
      exact .inr ⟨hu, h⟩
  have hpnew : Pending (s'.pc t) cur s.next := by rw [hpc', upd_same]; exact ⟨rfl, rfl⟩
  have hkid : ∀ p d, Kid s p d → Kid s' p d := by
    intro p d ⟨h1, h2, h3⟩
    refine ⟨h1, by omega, ?_⟩
    rw [hup d (by omega)]
    rcases h3 with h3 | ⟨u, h3⟩
    · exact .inl h3
    · have hu : u ≠ t := fun e => hpt p d (e ▸ h3)
      exact .inr ⟨u, by rw [holds_upd hpc' hu]; exact h3⟩
  have hnew : Kid s' cur s.next := ⟨hcur, by omega, .inr ⟨t, hpnew⟩⟩
  have g : Grows s s' := by
    refine ⟨by omega, fun a h => hname a (by omega), hkid, fun a h => ?_, fun a k h hk => ?_⟩
    · by_cases h1 : a = cur
      · subst h1; rw [hnc]; exact append_made _ _ _
      · rw [hno a h1 (by omega)]; exact Nat.le_refl _
    · by_cases h1 : a = cur
      · subst h1; rw [hnc]; exact length_append' (i.len a) hk
      · rw [hno a h1 (by omega)]; exact Nat.le_refl _
  have hempty : ∀ k, (s.node s.next).cells k = [] := by
    intro k
    cases h : (s.node s.next).cells k with
    | nil => rfl
    | cons d l =>
      have := i.kid s.next k d (by rw [h]; exact List.mem_cons_self ..)
      exact absurd this.2.1 (by have := this.1; omega)
  have hcont : ∀ p L, Content s p L → Content s' p L := by
    intro p L h
    have hsh := shift_upd hpc' (p := p) (fun c j h => by rw [hpc] at h; cases h) (fun c j h => by cases h)
    by_cases hp : p = s.next
    · subst hp
      have hd : (s.node s.next).downs = [] := by unfold Node.downs; rw [hempty]; exact List.take_nil
      rcases h with ⟨h1, h2⟩ | ⟨u, A, x, B, k, h1, _⟩
      · refine .inl ⟨fun u c j hu => h1 u c j ((hsh u c j).1 hu), ?_⟩
        rw [hnn, ← h2, hd]
        rfl
      · have := i.pcs u
        rw [h1] at this
        exact absurd this.2 (Nat.lt_irrefl _)
    · exact h.same (hdowns p hp) (hlen p hp) (by omega) (fun a h => hname a (by omega)) hsh
  have inv : Inv s' := by
    refine ⟨?_, ?_, ?_, ?_, ?_, ?_, ?_, ?_, ?_, ?_⟩
    · intro p k d hd
      by_cases h1 : p = cur
      · subst h1
        rw [hnc] at hd
        rcases mem_append hd with h | h | h
        · exact hkid _ _ (i.kid _ _ _ h)
        · exact hkid _ _ (i.kid _ _ _ h)
        · subst h; exact hnew
      · by_cases h2 : p = s.next
        · subst h2; rw [hnn] at hd; cases hd
        · rw [hno p h1 h2] at hd
          exact hkid _ _ (i.kid _ _ _ hd)
    · intro u p d h
      rcases hpend u p d h with ⟨_, _, rfl⟩ | ⟨_, h⟩
      · rw [hnn]; rfl
      · have := ((i.pcs u).pending h).2.1
        rw [hup d (by omega)]
        exact i.pend u p d h
    · intro u v p q d h1 h2
      rcases hpend u p d h1 with ⟨_, e1, e2⟩ | ⟨_, h1⟩ <;> rcases hpend v q d h2 with ⟨_, e3, e4⟩ | ⟨_, h2⟩
      · rw [e1, e3]
      · have := ((i.pcs v).pending h2).2.1
        omega
      · have := ((i.pcs u).pending h1).2.1
        omega
      · exact i.uniq u v p q d h1 h2
    · intro p
      by_cases h1 : p = cur
      · subst h1; rw [hnc, append_arr]; exact Nat.lt_of_lt_of_le (i.arr p) (append_made _ _ _)
      · by_cases h2 : p = s.next
        · subst h2; rw [hnn]; exact Nat.zero_lt_one
        · rw [hno p h1 h2]; exact i.arr p
    · intro p
      by_cases h1 : p = cur
      · subst h1; rw [hnc, append_arr, append_len]; exact Nat.le_trans (i.len p) (length_append' (i.len p) (i.arr p))
      · by_cases h2 : p = s.next
        · subst h2; rw [hnn]; exact Nat.le_refl _
        · rw [hno p h1 h2]; exact i.len p
    · intro a u
      have hhu : Holds (s'.pc u) a ↔ Holds (s.pc u) a := by
        by_cases hu : u = t
        · subst hu; rw [hpc', upd_same, hpc]; exact Iff.rfl
        · rw [holds_upd hpc' hu]
      rw [hhu]
      by_cases h2 : a = s.next
      · subst h2
        rw [hnn]
        exact ⟨fun h => (by cases h), fun h => absurd ((i.pcs u).holds_old h) (Nat.lt_irrefl _)⟩
      · rw [hlock a h2]; exact i.locks a u
    · intro u k p child arr rest' h
      by_cases hu : u = t
      · subst hu
        rw [hpc', upd_same] at h
        cases h
        rw [hdowns cur (by omega), hlen cur (by omega), hnc]
        exact ⟨take_append (i.len cur) _ _, fun h => absurd (i.kid cur _ _ (List.mem_of_mem_take h)).2.1 (Nat.lt_irrefl _),
          append_target _ _ _ (i.arr cur)⟩
      · rw [holds_upd hpc' hu] at h
        have hne : p ≠ cur := fun e => hu (i.holds_unique (a := cur) (by rw [h]; exact e) hhold)
        have hlt := (i.pcs u).holds_old (a := p) (by rw [h]; rfl)
        rw [hno p hne (by omega)]
        exact i.app u k p child arr rest' h
    · intro p
      obtain ⟨L, h1, h2⟩ := i.cont p
      exact ⟨L, hcont p L h1, h2⟩
    · intro u
      by_cases hu : u = t
      · subst hu
        rw [hpc', upd_same]
        refine ⟨hnew, ?_⟩
        rw [hnn]
        exact ha.grows g
      · rw [holds_upd hpc' hu]
        exact (i.pcs u).grows g
    · intro u e he
      have : s'.log = s.log := by rw [← hs']; rfl
      rw [this] at he
      exact (i.logs u e he).grows g
  exact .same ⟨inv, g, hcont⟩

/-- L64, the header. -/
theorem Inv.header {s : St} (i : Inv s) {t : Nat} {c : Call} {cur child arr : Nat} {rest : List Bytes}
    (hpc : s.pc t = .appended c cur child arr rest) :
    StepOk s ((s.set cur { s.node cur with arr := arr, len := (s.node cur).len + 1 }).goto t (.linked c cur child rest)) := by
  have hhold : Holds (s.pc t) cur := by rw [hpc]; rfl
  obtain ⟨a1, a2, a3⟩ := i.app t c cur child arr rest hpc
  have hp := i.pcs t
  rw [hpc] at hp
  have hd : ({ s.node cur with arr := arr, len := (s.node cur).len + 1 } : Node).downs = (s.node cur).downs ++ [child] := a1
  have hlen : (s.node cur).len + 1 ≤ ((s.node cur).cells arr).length := by
    have := congrArg List.length a1
    rw [List.length_take, List.length_append, Node.downs_length (i.len cur), List.length_singleton] at this
    omega
  have hno : ∀ u k j, ((s.set cur { s.node cur with arr := arr, len := (s.node cur).len + 1 }).goto t (.linked c cur child rest)).pc u ≠ .shift k cur j := by
    intro u k j h
    by_cases hu : u = t
    · subst hu
      have : upd s.pc u (.linked c cur child rest) u = .shift k cur j := h
      rw [upd_same] at this
      cases this
    · have : upd s.pc t (.linked c cur child rest) u = .shift k cur j := h
      rw [upd_other _ _ hu] at this
      exact hu (i.holds_unique (a := cur) (by rw [this]; rfl) hhold)
  have hcont : ∀ L, Content s cur L → Content ((s.set cur { s.node cur with arr := arr, len := (s.node cur).len + 1 }).goto t (.linked c cur child rest)) cur
      (L ++ [child]) := by
    intro L hL
    obtain ⟨_, h2⟩ := i.content_seen hhold (fun c j h => by rw [hpc] at h; cases h) hL
    refine .inl ⟨hno, ?_⟩
    show (upd s.node cur _ cur).downs = _
    rw [upd_same, hd, h2]
  obtain ⟨w1, w2, w3⟩ := i.write (t := t) (cur := cur) (q := .linked c cur child rest)
    (n' := { s.node cur with arr := arr, len := (s.node cur).len + 1 }) hhold rfl rfl rfl rfl rfl (fun _ => Nat.le_refl _)
    (fun k d h => i.kid cur k d h) a3 hlen (fun p d => by rw [hpc]; exact Iff.rfl) (fun _ _ _ _ _ h => by cases h)
    (by
      obtain ⟨L, h1, h2⟩ := i.cont cur
      refine ⟨L ++ [child], hcont L h1, ?_⟩
      obtain ⟨_, h3⟩ := i.content_seen hhold (fun c j h => by rw [hpc] at h; cases h) h1
      rw [← h3]
      rw [← h3] at h2
      exact List.nodup_append.2 ⟨h2, List.nodup_cons.2 ⟨List.not_mem_nil, List.nodup_nil⟩, fun a ha b hb e => a2 (by
        rw [List.mem_singleton] at hb
        rw [← hb, ← e]
        exact ha)⟩) hp
  refine ⟨w1, w2, fun p L hL => ?_⟩
  by_cases hpc2 : p = cur
  · subst hpc2
    exact ⟨_, hcont L hL, .inr (.inl ⟨t, c, child, arr, rest, hpc, rfl⟩)⟩
  · exact ⟨L, w3 p L hpc2 hL, .inl rfl⟩

/-- L65. -/
theorem Inv.link {s : St} (i : Inv s) {t : Nat} {c : Call} {cur child : Nat} {rest : List Bytes} (hpc : s.pc t = .linked c cur child rest) :
    StepOk s ((s.set child { s.node child with up := some cur }).goto t (.unlock c cur (some child) rest)) := by
  have hhold : Holds (s.pc t) cur := by rw [hpc]; rfl
  have hp := i.pcs t
  rw [hpc] at hp
  generalize hs' : (s.set child { s.node child with up := some cur }).goto t (.unlock c cur (some child) rest) = s'
  have hpc' : s'.pc = upd s.pc t (.unlock c cur (some child) rest) := by rw [← hs']; rfl
  have hnx : s'.next = s.next := by rw [← hs']; rfl
  have hn : ∀ a, s'.node a = if a = child then { s.node child with up := some cur } else s.node a := fun a => by rw [← hs']; rfl
  have hname : ∀ a, (s'.node a).name = (s.node a).name := by intro a; rw [hn a]; split <;> first | rfl | (rename_i e; rw [e])
  have hcells : ∀ a, (s'.node a).cells = (s.node a).cells := by intro a; rw [hn a]; split <;> first | rfl | (rename_i e; rw [e])
  have hmade : ∀ a, (s'.node a).made = (s.node a).made := by intro a; rw [hn a]; split <;> first | rfl | (rename_i e; rw [e])
  have harr : ∀ a, (s'.node a).arr = (s.node a).arr := by intro a; rw [hn a]; split <;> first | rfl | (rename_i e; rw [e])
  have hlen : ∀ a, (s'.node a).len = (s.node a).len := by intro a; rw [hn a]; split <;> first | rfl | (rename_i e; rw [e])
  have hlock : ∀ a, (s'.node a).lock = (s.node a).lock := by intro a; rw [hn a]; split <;> first | rfl | (rename_i e; rw [e])
  have hdowns : ∀ a, (s'.node a).downs = (s.node a).downs := by intro a; unfold Node.downs; rw [hcells, harr, hlen]
  have hupc : (s'.node child).up = some cur := by rw [hn, if_pos rfl]
  have hupo : ∀ a, a ≠ child → (s'.node a).up = (s.node a).up := fun a h => by rw [hn, if_neg h]
  have hpt : Pending (s.pc t) cur child := by rw [hpc]; exact ⟨rfl, rfl⟩
  have hpend : ∀ u p d, Pending (s'.pc u) p d → u ≠ t ∧ Pending (s.pc u) p d := by
    intro u p d h
    by_cases hu : u = t
    · subst hu
      rw [hpc', upd_same] at h
      exact h.elim
    · rw [holds_upd hpc' hu] at h
      exact ⟨hu, h⟩
  have hne : ∀ u p d, u ≠ t → Pending (s.pc u) p d → d ≠ child := by
    intro u p d hu h e
    subst e
    have := i.uniq u t p cur d h hpt
    subst this
    exact hu (i.holds_unique h.holds hhold)
  have hkid : ∀ p d, Kid s p d → Kid s' p d := by
    intro p d hk
    refine ⟨hk.1, by rw [hnx]; exact hk.2.1, ?_⟩
    by_cases hd : d = child
    · subst hd
      rw [hupc, i.kid_one hk hp.1]
      exact .inl rfl
    · rw [hupo d hd]
      rcases hk.2.2 with h | ⟨u, h⟩
      · exact .inl h
      · have hu : u ≠ t := by
          intro e
          subst e
          rw [hpc] at h
          exact hd h.2.symm
        exact .inr ⟨u, by rw [holds_upd hpc' hu]; exact h⟩
  have g : Grows s s' := ⟨Nat.le_of_eq hnx.symm, fun a _ => hname a, hkid, fun a _ => Nat.le_of_eq (hmade a).symm,
    fun a k _ _ => Nat.le_of_eq (by rw [hcells])⟩
  have hcont : ∀ p L, Content s p L → Content s' p L := fun p L h =>
    h.same (hdowns p) (hlen p) (Nat.le_of_eq hnx.symm) (fun a _ => hname a)
      (shift_upd hpc' (fun c j h => by rw [hpc] at h; cases h) (fun c j h => by cases h))
  refine .same ⟨⟨?_, ?_, ?_, ?_, ?_, ?_, ?_, ?_, ?_, ?_⟩, g, hcont⟩
  · intro p k d hd
    rw [hcells] at hd
    exact hkid _ _ (i.kid _ _ _ hd)
  · intro u p d h
    obtain ⟨hu, h⟩ := hpend u p d h
    rw [hupo d (hne u p d hu h)]
    exact i.pend u p d h
  · intro u v p q d h1 h2
    exact i.uniq u v p q d (hpend u p d h1).2 (hpend v q d h2).2
  · intro p; rw [harr, hmade]; exact i.arr p
  · intro p; rw [harr, hlen, hcells]; exact i.len p
  · intro a u
    rw [hlock, i.locks a u]
    by_cases hu : u = t
    · subst hu; rw [hpc', upd_same, hpc]; exact Iff.rfl
    · rw [holds_upd hpc' hu]
  · intro u k p ch arr rest' h
    by_cases hu : u = t
    · subst hu; rw [hpc', upd_same] at h; cases h
    · rw [holds_upd hpc' hu] at h
      rw [hcells, hlen, hdowns, hmade]
      exact i.app u k p ch arr rest' h
  · intro p
    obtain ⟨L, h1, h2⟩ := i.cont p
    exact ⟨L, hcont p L h1, h2⟩
  · intro u
    by_cases hu : u = t
    · subst hu
      rw [hpc', upd_same]
      refine .inr ⟨child, rfl, hkid _ _ hp.1, ?_⟩
      rw [hname]
      exact hp.2.grows g
    · rw [holds_upd hpc' hu]
      exact (i.pcs u).grows g
  · intro u e he
    have : s'.log = s.log := by rw [← hs']; rfl
    rw [this] at he
    exact (i.logs u e he).grows g

/-- While a child is taken out of `cur`. -/
theorem Inv.shifting {s : St} (i : Inv s) {t : Nat} {c : Call} {cur j : Nat} (hpc : s.pc t = .shift c cur j) {L : List Nat} (hL : Content s cur L) :
    ∃ A x B k, c = .del cur (s.node x).name ∧ j = A.length + k ∧ L = A ++ x :: B ∧ k ≤ B.length ∧
      (s.node cur).downs = A ++ B.take k ++ (x :: B).drop k ∧ (s.node cur).len = (A ++ x :: B).length ∧
      (∀ a ∈ A, (s.node a).name ≠ (s.node x).name) ∧ ∀ a ∈ L, a < s.next := by
  rcases hL with ⟨h1, _⟩ | ⟨u, A, x, B, k, h1, h2, h3, h4, h5, h6, h7⟩
  · exact absurd hpc (h1 t c j)
  · have := i.holds_unique (t := t) (u := u) (a := cur) (by rw [hpc]; rfl) (by rw [h1]; rfl)
    subst this
    rw [hpc] at h1
    cases h1
    exact ⟨A, x, B, k, rfl, rfl, h2, h3, h4, h5, h6, h7⟩

theorem take_set {l : List Nat} {m j v : Nat} : (l.set j v).take m = (l.take m).set j v := by
  rw [List.take_set]

/-- L113-117. -/
theorem Inv.shift {s : St} (i : Inv s) {t : Nat} {c : Call} {cur j : Nat} (hpc : s.pc t = .shift c cur j) : StepOk s (s.shift t c cur j) := by
  have hhold : Holds (s.pc t) cur := by rw [hpc]; rfl
  have hp := i.pcs t
  rw [hpc] at hp
  obtain ⟨⟨n, hc⟩, hcur⟩ := hp
  have hlen := i.len cur
  unfold St.shift
  dsimp only
  by_cases hj : j + 1 < (s.node cur).len
  · rw [if_pos hj]
    generalize hn' : ({ s.node cur with cells := upd (s.node cur).cells (s.node cur).arr (((s.node cur).cells (s.node cur).arr).set j (((s.node cur).cells (s.node cur).arr).getD (j + 1) 0)) } : Node) = n'
    have hcells : n'.cells = upd (s.node cur).cells (s.node cur).arr
      (((s.node cur).cells (s.node cur).arr).set j (((s.node cur).cells (s.node cur).arr).getD (j + 1) 0)) := by rw [← hn']
    have harr : n'.arr = (s.node cur).arr := by rw [← hn']
    have hl' : n'.len = (s.node cur).len := by rw [← hn']
    have hdowns : n'.downs = ((s.node cur).downs).set j ((s.node cur).downs.getD (j + 1) 0) := by
      unfold Node.downs
      rw [hcells, harr, hl', upd_same, take_set]
      congr 1
      rw [List.getD_eq_getElem?_getD, List.getD_eq_getElem?_getD, List.getElem?_take, if_pos hj]
    have hcont : ∀ L, Content s cur L → Content ((s.set cur n').goto t (.shift c cur (j + 1))) cur L := by
      intro L hL
      obtain ⟨A, x, B, k, e1, e2, e3, e4, e5, e6, e7, e8⟩ := i.shifting hpc hL
      have hk : k < B.length := by
        rw [e6, List.length_append, List.length_cons, e2] at hj
        omega
      have hnm : ∀ a, (((s.set cur n').goto t (.shift c cur (j + 1))).node a).name = (s.node a).name := by
        intro a
        show (upd s.node cur n' a).name = _
        by_cases ha : a = cur
        · subst ha; rw [upd_same, ← hn']
        · rw [upd_other _ _ ha]
      refine .inr ⟨t, A, x, B, k + 1, ?_, e3, hk, ?_, ?_, fun a ha => ?_, e8⟩
      · rw [hnm, ← e1]
        show upd s.pc t _ t = _
        rw [upd_same, e2]
        rfl
      · show (upd s.node cur n' cur).downs = _
        rw [upd_same, hdowns, e5, e2]
        exact shift_lists hk
      · show (upd s.node cur n' cur).len = _
        rw [upd_same, hl', e6]
      · rw [hnm, hnm]; exact e7 a ha
    obtain ⟨w1, w2, w3⟩ := i.write (t := t) (cur := cur) (q := .shift c cur (j + 1)) (n' := n') hhold rfl (by rw [← hn']) (by rw [← hn'])
      (by rw [← hn']) (by rw [← hn']) (fun k => by
        rw [hcells]
        by_cases hk : k = (s.node cur).arr
        · subst hk; rw [upd_same, List.length_set]; exact Nat.le_refl _
        · rw [upd_other _ _ hk]; exact Nat.le_refl _) (fun k d hd => by
        rw [hcells] at hd
        by_cases hk : k = (s.node cur).arr
        · subst hk
          rw [upd_same] at hd
          rcases List.mem_or_eq_of_mem_set hd with h | h
          · exact i.kid _ _ _ h
          · rw [h, List.getD_eq_getElem?_getD, List.getElem?_eq_getElem (by omega), Option.getD_some]
            exact i.kid _ _ _ (List.getElem_mem _)
        · rw [upd_other _ _ hk] at hd
          exact i.kid _ _ _ hd) (by rw [harr, ← hn']; exact i.arr cur) (by
        rw [hl', harr, hcells, upd_same, List.length_set]; exact hlen) (fun p d => by rw [hpc]; exact Iff.rfl) (fun _ _ _ _ _ h => by cases h)
      (by
        obtain ⟨L, h1, h2⟩ := i.cont cur
        exact ⟨L, hcont L h1, h2⟩) ⟨⟨n, hc⟩, hcur⟩
    refine ⟨w1, w2, fun p L hL => ⟨L, ?_, .inl rfl⟩⟩
    by_cases hp : p = cur
    · subst hp; exact hcont L hL
    · exact w3 p L hp hL
  · rw [if_neg hj]
    have hno : ∀ u k j', ((s.set cur { s.node cur with len := (s.node cur).len - 1 }).goto t (.unlock c cur none [])).pc u ≠ .shift k cur j' := by
      intro u k j' h
      by_cases hu : u = t
      · subst hu
        have : upd s.pc u (.unlock c cur none []) u = .shift k cur j' := h
        rw [upd_same] at this
        cases this
      · have : upd s.pc t (.unlock c cur none []) u = .shift k cur j' := h
        rw [upd_other _ _ hu] at this
        exact hu (i.holds_unique (a := cur) (by rw [this]; rfl) hhold)
    have hcont : ∀ L, Content s cur L → ∃ A x B, c = .del cur (s.node x).name ∧ L = A ++ x :: B ∧ (∀ a ∈ A, (s.node a).name ≠ (s.node x).name) ∧
        Content ((s.set cur { s.node cur with len := (s.node cur).len - 1 }).goto t (.unlock c cur none [])) cur (A ++ B) := by
      intro L hL
      obtain ⟨A, x, B, k, e1, e2, e3, e4, e5, e6, e7, e8⟩ := i.shifting hpc hL
      have hk : k = B.length := by
        rw [e6, List.length_append, List.length_cons, e2] at hj
        omega
      refine ⟨A, x, B, e1, e3, e7, .inl ⟨hno, ?_⟩⟩
      show (upd s.node cur _ cur).downs = _
      rw [upd_same]
      show ((s.node cur).cells (s.node cur).arr).take ((s.node cur).len - 1) = _
      have : ((s.node cur).cells (s.node cur).arr).take ((s.node cur).len - 1) = (s.node cur).downs.take ((s.node cur).len - 1) := by
        unfold Node.downs
        rw [List.take_take, Nat.min_eq_left (Nat.sub_le _ _)]
      rw [this, e5, e6, hk]
      exact shift_last
    obtain ⟨w1, w2, w3⟩ := i.write (t := t) (cur := cur) (q := .unlock c cur none []) (n' := { s.node cur with len := (s.node cur).len - 1 }) hhold rfl
      rfl rfl rfl rfl (fun k => Nat.le_refl _) (fun k d hd => i.kid _ _ _ hd) (i.arr cur) (Nat.le_trans (Nat.sub_le _ _) hlen)
      (fun p d => by rw [hpc]; exact Iff.rfl) (fun _ _ _ _ _ h => by cases h)
      (by
        obtain ⟨L, h1, h2⟩ := i.cont cur
        obtain ⟨A, x, B, _, e, _, h3⟩ := hcont L h1
        subst e
        exact ⟨A ++ B, h3, h2.sublist (List.Sublist.append (List.Sublist.refl _) (List.sublist_cons_self _ _))⟩) (.inl ⟨n, hc, rfl, hcur⟩)
    refine ⟨w1, w2, fun p L hL => ?_⟩
    by_cases hp : p = cur
    · subst hp
      obtain ⟨A, x, B, e1, e2, e3, e4⟩ := hcont L hL
      exact ⟨A ++ B, e4, .inr (.inr ⟨t, A, x, B, j, e1 ▸ hpc, e1 ▸ upd_same .., e2, rfl, e3⟩)⟩
    · exact ⟨L, w3 p L hp hL, .inl rfl⟩

/-- Every step keeps the invariant. -/
theorem Inv.step {s s' : St} (i : Inv s) {t : Nat} {c : Call} {f : Bool} (h : s.step t c f = some s') : StepOk s s' := by
  have hp := i.pcs t
  unfold St.step at h
  cases hpc : s.pc t with
  | idle =>
    rw [hpc] at h
    dsimp only at h
    split at h
    · cases h
      exact i.begin (fun a ha => by rw [hpc] at ha; exact ha) (by assumption)
    · cases h
  | look c cur n rest =>
    rw [hpc] at h hp
    cases h
    exact i.goto (fun a ha => by rw [hpc] at ha; exact ha) (fun _ ha => ha) ⟨hp, hp.old, i.arr cur, i.len cur⟩
  | scan c cur n rest arr len idx =>
    rw [hpc] at h hp
    dsimp only at h
    have hno : ∀ a, ¬ Holds (s.pc t) a := fun a ha => by rw [hpc] at ha; exact ha
    split at h
    · rename_i hlt
      cases hd : ((s.node cur).cells arr)[idx]? with
      | none =>
        rw [List.getElem?_eq_none_iff] at hd
        exact absurd (Nat.lt_of_lt_of_le hlt hp.2.2.2) (Nat.not_lt.2 hd)
      | some d =>
        rw [hd] at h
        dsimp only at h
        split at h
        · cases h
          exact i.hit hno hp.1 (i.kid _ _ _ (getElem?_lt hd)) (by assumption)
        · cases h
          exact i.goto hno (fun _ ha => ha) hp
    · cases h
      exact i.miss hno hp.1
  | want c cur n rest =>
    rw [hpc] at h
    dsimp only at h
    cases hl : (s.node cur).lock with
    | none => rw [hl] at h; cases h; exact i.lock hpc hl
    | some u => rw [hl] at h; cases h
  | locked c cur n rest =>
    rw [hpc] at h hp
    cases c with
    | del self name =>
      dsimp only at h
      cases hj : s.index cur n with
      | none => rw [hj] at h; cases h; exact i.notFound hpc
      | some j => rw [hj] at h; cases h; exact i.found hpc hj
    | add self tag names =>
      cases h
      rcases hp with hp | ⟨hp, _⟩
      · exact i.append f hpc hp
      · cases hp
    | get self tag names =>
      rcases hp with ⟨_, _, _, _, hp, _⟩ | ⟨hp, _⟩ <;> cases hp
    | find self names =>
      rcases hp with ⟨_, _, _, _, hp, _⟩ | ⟨hp, _⟩ <;> cases hp
  | appended c cur child arr rest => rw [hpc] at h; cases h; exact i.header hpc
  | linked c cur child rest => rw [hpc] at h; cases h; exact i.link hpc
  | shift c cur j => rw [hpc] at h; cases h; exact i.shift hpc
  | unlock c cur r rest =>
    rw [hpc] at h
    refine i.unlock hpc ?_
    cases r <;> cases h <;> rfl
  | enter c d ns fs =>
    rw [hpc] at h hp
    cases h
    obtain ⟨self, names, h1, h2, h3, h4⟩ := hp
    refine i.goto (fun a ha => by rw [hpc] at ha; exact ha) (fun _ ha => ha) ⟨self, names, h1, h2, fun g hg => ?_⟩
    rcases List.mem_cons.1 hg with rfl | hg
    · obtain ⟨pre, l, _, _, e3, _⟩ := id h3
      exact ⟨h3, e3.old h2, i.arr d, i.len d⟩
    · exact h4 g hg
  | find c fs =>
    rw [hpc] at h hp
    cases h
    exact i.findStep (fun a ha => by rw [hpc] at ha; exact ha) hp
  | panic c => rw [hpc] at hp; exact hp.elim

theorem run_cons {s s' : St} {e : Nat × Call × Bool} {l : List (Nat × Call × Bool)} (h : s.run (e :: l) = some s') :
    ∃ s1, s.step e.1 e.2.1 e.2.2 = some s1 ∧ s1.run l = some s' := by
  obtain ⟨t, c, f⟩ := e
  unfold St.run at h
  cases h1 : s.step t c f with
  | none => rw [h1] at h; cases h
  | some s1 => rw [h1] at h; exact ⟨s1, rfl, h⟩

theorem Inv.run {s s' : St} (i : Inv s) {l : List (Nat × Call × Bool)} (h : s.run l = some s') : Inv s' ∧ Grows s s' := by
  induction l generalizing s with
  | nil => cases h; exact ⟨i, .refl _⟩
  | cons e l ih =>
    obtain ⟨s1, h1, h2⟩ := run_cons h
    obtain ⟨i1, g1, _⟩ := i.step h1
    obtain ⟨i2, g2⟩ := ih i1 h2
    exact ⟨i2, g1.trans g2⟩

end Verif.TreeAll
