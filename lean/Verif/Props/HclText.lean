import Verif.Lemmas.HclBack
import Verif.Props.HclDecode
set_option linter.unusedSimpArgs false
/-! `Marshal` and `Unmarshal` of generic data (C47, C48). -/
namespace Verif.Hcl

variable {ext : Ext}

/-- Example data:
```
{"k": {"l 2": {"m": 10}, "n": {"o": 2.0625}}, "b": "hi", "c": [7, "x", {"d": true, "e": {"f": [-2]}}],
 "p": {"q": {"r": {"s": {"t": 3}}}}, "g": {"h": false, "i": {}, "j": "", "w": [4]}, "z": null}
```
-/
def exData : List (Bytes × GV) :=
  [(b "k", .map [(b "l 2", .map [(b "m", .int 10)]), (b "n", .map [(b "o", .flt (33 / 16))])]),
   (b "b", .str (b "hi")),
   (b "c", .list [.int 7, .str (b "x"), .map [(b "d", .bool true), (b "e", .map [(b "f", .list [.int (-2)])])]]),
   (b "p", .map [(b "q", .map [(b "r", .map [(b "s", .map [(b "t", .int 3)])])])]),
   (b "g", .map [(b "h", .bool false), (b "i", .map []), (b "j", .str []), (b "w", .list [.int 4])]),
   (b "z", .nil)]

/-- Its text. -/
def exDataText : Bytes := b "
  k \"l 2\" {
    m = 10
  }
  k \"n\" {
    o = 2.062500
  }
  b = \"hi\"
  c = [
    7,
    \"x\",
    {
      d = true
      e = {
        f = [
          -2
        ]
      }
    }
  ]
  p \"q\" \"r\" {
    s {
      t = 3
    }
  }
  g {
    h = false
    i {
      
    }
    j = \"\"
    w = [
      4
    ]
  }
  z = null()
"

example : marshal (.map exData) = .ok (some exDataText) := by decide +kernel

theorem exOk : okBody exData := by
  have hi : ∀ c : UInt8, identStart c = true → IsIdent [c] := fun c h => ⟨h, by simp⟩
  have hs : ∀ c : UInt8, identStart c = true → SafeStr [c] := by
    intro c h
    have h1 : c ≠ 34 ∧ c ≠ 92 ∧ c ≠ 10 ∧ c ≠ 13 := by
      refine ⟨?_, ?_, ?_, ?_⟩ <;> rintro rfl <;> revert h <;> decide
    have h2 : utf8Valid [c] = true := by
      have hall : ∀ n : Fin 256, identStart (UInt8.ofNat n) = true → utf8Valid [UInt8.ofNat n] = true := by
        decide +kernel
      have := hall ⟨c.toNat, c.toNat_lt⟩
      simp only [UInt8.ofNat_toNat] at this
      exact this h
    refine ⟨h2, by simpa using h1, ?_, ?_⟩ <;>
      (intro hh; have := hh.length_le; simp at this)
  have hl : SafeStr (b "l 2") := ⟨by decide, by decide, by decide, by decide⟩
  have he : SafeStr [] := ⟨by decide, by decide, by decide, by decide⟩
  have hhi : SafeStr (b "hi") := ⟨by decide, by decide, by decide, by decide⟩
  simp only [exData, okBody, okLine, okElems, okElem, okObj, okMember, okFlat, okLeaf, okLabels]
  refine ⟨⟨hi _ (by decide), by decide, by decide⟩, ⟨fun _ => ⟨hl, ⟨fun h => ?_, fun _ => ?_⟩, hs _ (by decide),
      ⟨fun h => ?_, fun _ => ?_⟩, trivial⟩, fun h => ?_⟩,
    ⟨hi _ (by decide), by decide, by decide⟩, hhi,
    ⟨hi _ (by decide), by decide, by decide⟩, ⟨trivial, hs _ (by decide), ⟨⟨hi _ (by decide), by decide⟩, trivial,
      ⟨hi _ (by decide), by decide⟩, ⟨⟨hi _ (by decide), by decide⟩, ⟨trivial, trivial⟩, trivial⟩, trivial⟩, trivial⟩,
    ⟨hi _ (by decide), by decide, by decide⟩, ⟨fun _ => ⟨hs _ (by decide), ⟨fun _ => ⟨hs _ (by decide),
      ⟨fun h => ?_, fun _ => ?_⟩, trivial⟩, fun h => ?_⟩, trivial⟩, fun h => ?_⟩,
    ⟨hi _ (by decide), by decide, by decide⟩, ⟨fun h => ?_, fun _ => ?_⟩,
    ⟨hi _ (by decide), by decide, by decide⟩, trivial, trivial⟩
  all_goals first
    | (exfalso; revert h; decide)
    | exact ⟨⟨hi _ (by decide), by decide, by decide⟩, trivial, trivial⟩
    | exact ⟨⟨hi _ (by decide), by decide, by decide⟩, trivial,
        ⟨⟨hi _ (by decide), by decide, by decide⟩, ⟨fun h => by revert h; decide, fun _ => trivial⟩,
        ⟨hi _ (by decide), by decide, by decide⟩, he,
        ⟨hi _ (by decide), by decide, by decide⟩, ⟨trivial, trivial⟩, trivial⟩⟩
    | exact ⟨⟨hi _ (by decide), by decide, by decide⟩, ⟨fun h => absurd h (by decide), fun _ =>
        ⟨⟨hi _ (by decide), by decide, by decide⟩, trivial, trivial⟩⟩, trivial⟩

theorem exExact : exactM id exData := by
  have h : ∀ n : Int, -(2 ^ 63) ≤ n → n < 2 ^ 63 → IsInt64 n := fun n h1 h2 => ⟨n, rfl, h1, h2⟩
  have hf : ExactNum (33 / 16) := by
    refine .inr ⟨by norm_num, ?_, ⟨33, -4, by norm_num, by norm_num⟩, ⟨2062500, by norm_num⟩⟩
    rintro ⟨n, hn⟩
    have : (33 : Rat) = 16 * n := by linarith
    have : (33 : Int) = 16 * n := by exact_mod_cast this
    omega
  simp only [exData, exactM, exact, exactL, NonZero, GV.zeroScalar, List.map_cons, List.map_nil, id]
  refine ⟨⟨⟨⟨⟨h _ (by decide) (by decide), trivial⟩, by decide⟩, ⟨⟨hf, trivial⟩, by decide⟩, trivial⟩, by decide⟩, trivial,
    ⟨by decide, h _ (by decide) (by decide), by decide, trivial, trivial, ⟨⟨trivial, ⟨⟨⟨by decide, h _ (by decide) (by decide), trivial⟩, trivial⟩,
      by decide⟩, trivial⟩, by decide⟩, trivial⟩,
    ⟨⟨⟨⟨⟨⟨⟨⟨h _ (by decide) (by decide), trivial⟩, by decide⟩, trivial⟩, by decide⟩, trivial⟩, by decide⟩, trivial⟩, by decide⟩,
    ⟨⟨trivial, ⟨trivial, by decide⟩, trivial, ⟨by decide, h _ (by decide) (by decide), trivial⟩, trivial⟩, by decide⟩, trivial, trivial⟩

theorem exUniform : uniformM exData := by
  simp only [exData, uniformM, uniform, uniformL]
  refine ⟨⟨fun _ => ⟨⟨⟨fun h => ?_, fun _ => ⟨trivial, trivial⟩⟩, ⟨fun h => ?_, fun _ => ⟨trivial, trivial⟩⟩, trivial⟩, .inr (by decide)⟩,
      fun h => ?_⟩,
    trivial, trivial,
    ⟨fun _ => ⟨⟨⟨fun _ => ⟨⟨⟨fun h => ?_, fun _ => ⟨⟨fun h => ?_, fun _ => ⟨trivial, trivial⟩⟩, trivial⟩⟩, trivial⟩, .inr (by decide)⟩, fun h => ?_⟩, trivial⟩,
      .inl (by decide)⟩, fun h => ?_⟩,
    ⟨fun h => ?_, fun _ => ⟨trivial, ⟨fun h => ?_, fun _ => trivial⟩, trivial, trivial, trivial⟩⟩, trivial, trivial⟩
  all_goals (exfalso; revert h; decide)

/-- C48 for data whose keys are names and whose strings need no escapes: what `Marshal` writes is HCL, with
one attribute for each member that is not a map, and blocks for the maps.

What is missing: other keys and strings (see `C48_violated`), maps in lists with more than one further level
of maps (see `C48_violated_nested`), typed nil values, members called like the internal name of list
elements. -/
theorem C48_partial {m : List (Bytes × GV)} {o : Option Bytes} (hok : okBody m) (h : marshal (.map m) = .ok o) :
    ∃ t, o = some t ∧ parseConfig t = .ok (bodyOf m) := marshal_body hok h

example : ∃ t, marshal (.map exData) = .ok (some t) ∧ okBody exData := ⟨exDataText, by decide +kernel, exOk⟩

/-- C48 does not hold as stated: the key `a b` and a string with a quote give text that is not HCL. -/
theorem C48_violated :
    (∃ t, marshal (.map [(b "a b", .int 1)]) = .ok (some t) ∧ parseConfig t = .error .invalid) ∧
    (∃ t, marshal (.map [(b "a", .str (b "\"b"))]) = .ok (some t) ∧ parseConfig t = .error .invalid) :=
  ⟨⟨b "\n  a b = 1\n", by decide +kernel, by decide +kernel⟩,
    ⟨b "\n  a = \"\"b\"\n", by decide +kernel, by decide +kernel⟩⟩

/-- C48: nor do maps nested in a list, `{"a": [{"b": {"c": {"d": 1}}}]}`. -/
theorem C48_violated_nested :
    ∃ t, marshal (.map [(b "a", .list [.map [(b "b", .map [(b "c", .map [(b "d", .int 1)])])]])]) = .ok (some t) ∧
      parseConfig t = .error .invalid :=
  ⟨b "\n  a = [\n    {\n      b = {\n        c {\n          d = 1\n        }\n      }\n    }\n  ]\n",
    by decide +kernel, by decide +kernel⟩

/-- C47 for data as in `C48_partial` whose numbers are written exactly, whose strings are normalised, without
zero values in lists, and where the members of a map of maps are all or none maps of maps: `Marshal`
succeeds and `Unmarshal` of the text into an empty map gives the same data.

What is missing: the data excluded by the hypotheses (see `C47_violated` and the theorems after it). -/
theorem C47_partial (ho : ∀ p ks, (ext.ord p ks).Perm ks) {m : List (Bytes × GV)} (hne : m ≠ []) (hok : okBody m)
    (hex : exactM ext.nfc m) (hun : uniformM m) :
    ∃ t m', marshal (.map m) = .ok (some t) ∧ unmarshalMap ext t [] = .ok m' ∧ Same (.map m) (.map m') := by
  obtain ⟨o, ho'⟩ := encV_total ext.nfc (.map m) (by simp only [exact]; exact ⟨hex, okBody_nodup hok⟩) 0 none
  obtain ⟨t, rfl, hp⟩ := marshal_body hok ho'
  refine ⟨t, canonM m, ho', ?_, ?_⟩
  · unfold unmarshalMap
    rw [decodeMap_back ho hne hok hex hun hp]
    simp only [Out.map, Out.bind, foldl_sorted_id (sorted_canonM m)]
  · have := same_canon ext.nfc (.map m) (by simp only [exact]; exact ⟨hex, okBody_nodup hok⟩)
    simpa only [GV.canon] using this

example : ∃ t m', marshal (.map exData) = .ok (some t) ∧ unmarshalMap exExtR t [] = .ok m' ∧ Same (.map exData) (.map m') :=
  C47_partial (fun _ _ => List.reverse_perm _) (by decide) exOk exExact exUniform

/-- C47 for a list: `Marshal` succeeds and `Unmarshal` of the text into an empty slice gives the same data. -/
theorem C47_list {l : List GV} (hok : okElems l) (hex : exactL ext.nfc l) :
    ∃ t l', marshal (.list l) = .ok (some t) ∧ unmarshalSlice ext t [] = .ok l' ∧ SameL l l' := by
  obtain ⟨arr, ha⟩ := encList_total ext.nfc l hex 0
  refine ⟨listText 0 arr, canonL l, by simp only [marshal, encV, ha]; rfl, ?_, sameL_canon ext.nfc l hex⟩
  have hp := parseConfig_list (level := 0) (encList_ok 0 l arr hok ha)
  unfold unmarshalSlice decodeSlice parseX
  rw [hp]
  simp only [Out.ofParse, Out.bind, Out.map, Body.attrs, GoMap.get?, if_true, native_exprs ext l hex, List.nil_append]

example : okElems [.int 1, .list [.bool true]] ∧ exactL id [.int 1, .list [.bool true]] := by
  refine ⟨by simp [okElems, okElem], ?_⟩
  simp only [exactL, exact, NonZero, GV.zeroScalar]
  exact ⟨by decide, ⟨1, rfl, by decide, by decide⟩, trivial, ⟨by decide, trivial, trivial⟩, trivial⟩

/-- C47 does not hold as stated: `{"a": [0]}` comes back as `{"a": [[]]}`. -/
theorem C47_violated :
    ∃ t m', marshal (.map [(b "a", .list [.int 0])]) = .ok (some t) ∧ unmarshalMap exExt t [] = .ok m' ∧
      m' = [(b "a", .list [.nilList])] ∧ ¬ Same (.map [(b "a", .list [.int 0])]) (.map m') := by
  refine ⟨_, _, rfl, (by decide +kernel : _ = Out.ok [(b "a", .list [.nilList])]), rfl, ?_⟩
  simp [Same, SameM, SameL, GoMap.get?, GV.value]

/-- C47: a backslash followed by `n` comes back as a line break. -/
theorem C47_violated_escape :
    ∃ t m', marshal (.map [(b "a", .str (b "\\n"))]) = .ok (some t) ∧ unmarshalMap exExt t [] = .ok m' ∧
      m' = [(b "a", .str (b "\n"))] ∧ ¬ Same (.map [(b "a", .str (b "\\n"))]) (.map m') := by
  refine ⟨_, _, rfl, (by decide +kernel : _ = Out.ok [(b "a", .str (b "\n"))]), rfl, ?_⟩
  simp only [Same, SameM, GoMap.get?, if_true, Option.some.injEq, exists_eq_left', GV.map.injEq]
  rintro ⟨⟨h, -⟩, -⟩
  revert h; decide

/-- C47: in a map of maps of which only some are maps of maps, the others are lost: `{"m": {"a": {"x": 1},
"b": {"y": {"z": 1}}}}` comes back without `a`. -/
theorem C47_violated_lost :
    ∃ t m', marshal (.map [(b "m", .map [(b "a", .map [(b "x", .int 1)]), (b "b", .map [(b "y", .map [(b "z", .int 1)])])])]) =
        .ok (some t) ∧ unmarshalMap exExt t [] = .ok m' ∧
      m' = [(b "m", .map [(b "b", .map [(b "y", .map [(b "z", .int 1)])])])] :=
  ⟨_, _, rfl, by decide +kernel, rfl⟩

/-- C47: a fraction with more than six decimals is cut, and an empty map does not come back at all. -/
theorem C47_violated_number :
    (∃ t, marshal (.map [(b "a", .flt (1 / 2 ^ 10))]) = .ok (some t) ∧
      unmarshalMap exExt t [] = .ok [(b "a", .flt (2252808620001779 / 2305843009213693952))]) ∧
    (∃ t, marshal (.map []) = .ok (some t) ∧ unmarshalMap ext t [] = .panic) := by
  refine ⟨⟨b "\n  a = 0.000977\n", by decide +kernel, ?_⟩, ⟨_, rfl, ?_⟩⟩
  · decide +kernel
  · unfold unmarshalMap decodeMap
    rw [if_pos (by decide)]; rfl

end Verif.Hcl
