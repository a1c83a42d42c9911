import Verif.Lemmas.SpecWire
import Verif.Props.Spec
/-!
# C169: specifications that can be sent
-/
namespace Verif.Spec

/-- **C169, partial**: if class names and labels of a description are UTF-8, then so is every string of the message that `NewStruct` makes of it: field names need no hypothesis. -/
theorem C169_partial {name : Bytes} {m : Option (List (Bytes × SVal))} {s : Struct} (h : NewStruct name m = .ok s) (hc : IsUtf8 name)
    (hn : ∀ m', m = some m' → SVal.NamesF IsUtf8 m') : s.All IsUtf8 :=
  newStruct_all (fun v => newValueN_all _ v) h hc hn

/-- Nothing less will do: if no entries of maps with two labels are lost (C03), the message has only UTF-8 strings exactly if class names and labels are. -/
theorem C169_exact {name : Bytes} {m : List (Bytes × SVal)} (hd : SVal.FirstLabelsDistinctF m) {s : Struct} (h : NewStruct name (some m) = .ok s) :
    s.All IsUtf8 ↔ IsUtf8 name ∧ SVal.NamesF IsUtf8 m := by
  obtain ⟨fs, hfs, rfl⟩ := ((C02_newStruct name).2.2 m hd s).1 h
  simp only [Struct.All, denFields_all hfs]

theorem not_utf8_ff : ¬ IsUtf8 [0xff] := fun h => by
  have := (utf8Valid_iff _).2 h
  exact absurd this (by decide)

/-- **C169 is violated**: `NewStruct` refuses field names that are not UTF-8, but not such class names or labels; the messages cannot be sent. -/
theorem C169_violated :
    (∃ e, NewStruct (b "c") (some [([0xff], .str (b "d"))]) = .error e) ∧
    (∃ s, NewStruct [0xff] none = .ok s ∧ ¬ s.All IsUtf8) ∧
    (∃ s, NewStruct (b "c") (some [(b "F", .str [0xff])]) = .ok s ∧ ¬ s.All IsUtf8) ∧
    (∃ s, NewStruct (b "c") (some [(b "F", .mapStr [([0xff], b "d")])]) = .ok s ∧ ¬ s.All IsUtf8) ∧
    (∃ s, NewStruct (b "c") (some [(b "F", .map2Str [((b "x", [0xff]), b "d")])]) = .ok s ∧ ¬ s.All IsUtf8) :=
  ⟨⟨_, rfl⟩, ⟨_, rfl, not_utf8_ff⟩, ⟨_, rfl, fun h => not_utf8_ff h.2.2.1⟩, ⟨_, rfl, fun h => not_utf8_ff h.2.2.1.1⟩,
    ⟨_, rfl, fun h => not_utf8_ff h.2.2.1.2.1.1⟩⟩

-- A description with a map of two labels; all its names are UTF-8, and so is the message.
example : ∃ s, NewStruct (b "geo") (some [(b "Shape", .pair (.mk (.str (b "circle")) (.hash [(b "M", .map2Str [((b "x", b "ü"), b "c")])])))]) = .ok s ∧
    SVal.NamesF IsUtf8 [(b "Shape", .pair (.mk (.str (b "circle")) (.hash [(b "M", .map2Str [((b "x", b "ü"), b "c")])])))] :=
  ⟨_, rfl, by simp [SVal.NamesF, SVal.Names, SPair.Names, ← utf8Valid_iff]; decide⟩

end Verif.Spec
