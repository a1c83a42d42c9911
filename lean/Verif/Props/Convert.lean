import Verif.Props.HclText
import Verif.Spec.Convert
set_option linter.unusedSimpArgs false
/-! Conversions between formats (C69, C70). -/
namespace Verif.Hcl
open Det (insertK ltB get?_insertK)

variable {ext : Ext} {c : Codec}

theorem get?_jsonM (m : List (Bytes × GV)) (k : Bytes) : GoMap.get? (jsonM m) k = (GoMap.get? m k).map GV.json := by
  induction m with
  | nil => simp [jsonM, GoMap.get?]
  | cons e m ih =>
    obtain ⟨k', v⟩ := e
    simp only [jsonM, get?_insertK, GoMap.get?, ih]
    split <;> simp

theorem sorted_jsonM (m : List (Bytes × GV)) : SortedK (jsonM m) := by
  induction m with
  | nil => exact .nil
  | cons e m ih => obtain ⟨k, v⟩ := e; simp only [jsonM]; exact ih.insert

mutual
/-- Decoded data stands for the same JSON value. -/
theorem json_canon : ∀ v : GV, noEmpty v → v.canon.json = v.json
  | .list [], h => absurd rfl h.1
  | .list (v :: l), h => by
    have h1 := json_canon v h.2.1
    have h2 := jsonL_canon l h.2.2
    simp only [GV.canon, canonL, mkList, List.isEmpty_cons, Bool.false_eq_true, if_false, GV.json, jsonL, h1, h2]
  | .map m, h => by
    simp only [noEmpty] at h
    simp only [GV.canon, GV.json]
    congr 1
    refine (sorted_jsonM _).ext (sorted_jsonM m) fun k => ?_
    rw [get?_jsonM, get?_jsonM, get?_canonM]
    exact jsonM_canon m h k
  | .flt q, _ => by
    simp only [GV.canon]
    split
    · rename_i h
      simp only [GV.json]
      rw [← Rat.den_eq_one_iff q |>.1 h] 
      simp
    · rfl
  | .int _, _ => rfl
  | .nil, _ => rfl
  | .nilList, _ => rfl
  | .nilMap, _ => rfl
  | .str _, _ => rfl
  | .bool _, _ => rfl
theorem jsonL_canon : ∀ l : List GV, noEmptyL l → jsonL (canonL l) = jsonL l
  | [], _ => rfl
  | v :: l, h => by
    simp only [noEmptyL] at h
    simp only [canonL, jsonL, json_canon v h.1, jsonL_canon l h.2]
theorem jsonM_canon : ∀ m : List (Bytes × GV), noEmptyM m → ∀ k,
    ((GoMap.get? m k).map GV.canon).map GV.json = (GoMap.get? m k).map GV.json
  | [], _, k => rfl
  | (k', v) :: m, h, k => by
    simp only [noEmptyM] at h
    simp only [GoMap.get?]
    split
    · simp only [Option.map_some, json_canon v h.1]
    · exact jsonM_canon m h.2 k
end

/-- C69 for JSON texts whose data is as in `C47_partial` and has no empty lists: the text goes to HCL and
comes back as the encoding of data that stands for the same JSON value.

What is missing: the data excluded by the hypotheses; see `C69_violated`. -/
theorem C69_partial (ho : ∀ p ks, (ext.ord p ks).Perm ks) {raw : Bytes} {m : List (Bytes × GV)}
    (hd : c.jsonDec raw = .ok (.map m)) (hne : m ≠ []) (hok : okBody m) (hex : exactM ext.nfc m) (hun : uniformM m)
    (hno : noEmptyM m) :
    ∃ t v, jsonToHcl c raw = .ok t ∧ hclToJson c ext t = .ofExcept (c.jsonEnc v) ∧ v.json = (GV.map m).json := by
  obtain ⟨o, ho'⟩ := encV_total ext.nfc (.map m) (by simp only [exact]; exact ⟨hex, okBody_nodup hok⟩) 0 none
  obtain ⟨t, rfl, hp⟩ := marshal_body hok ho'
  have ho' : marshal (.map m) = .ok (some t) := ho'
  refine ⟨t, .map (canonM m), ?_, ?_, ?_⟩
  · simp only [jsonToHcl, hd, Out.ofExcept, Out.bind, hclEnc, ho', Out.map, Option.getD]
  · simp only [hclToJson, hclDec, unmarshalMap, decodeMap_back ho hne hok hex hun hp, Out.map, Out.bind,
      foldl_sorted_id (sorted_canonM m)]
  · exact json_canon (.map m) hno

/-- A codec that knows one text. -/
def exCodec (v : GV) : Codec :=
  ⟨fun t => if t = b "json" then .ok v else .error (), fun _ => .ok (b "out"), fun _ => .error (), fun _ => .error ()⟩

example : (exCodec (.map exData)).jsonDec (b "json") = .ok (.map exData) ∧ noEmptyM exData := by
  refine ⟨rfl, ?_⟩
  simp [exData, noEmptyM, noEmpty, noEmptyL]

/-- C69 does not hold as stated: `{"a": []}` comes back as `{"a": null}`. -/
theorem C69_violated {raw : Bytes} (hd : c.jsonDec raw = .ok (.map [(b "a", .list [])])) :
    ∃ t v, jsonToHcl c raw = .ok t ∧ hclToJson c exExt t = .ofExcept (c.jsonEnc v) ∧
      v.json = .obj [(b "a", .null)] ∧ (GV.map [(b "a", .list [])]).json = .obj [(b "a", .arr [])] := by
  have h : ∃ t, marshal (.map [(b "a", .list [])]) = .ok (some t) ∧
      unmarshalMap exExt t [] = .ok [(b "a", .nilList)] := ⟨_, rfl, by decide +kernel⟩
  obtain ⟨t, h1, h2⟩ := h
  refine ⟨t, .map [(b "a", .nilList)], ?_, ?_, rfl, rfl⟩
  · simp only [jsonToHcl, hd, Out.ofExcept, Out.bind, hclEnc, h1, Out.map, Option.getD]
  · simp only [hclToJson, hclDec, h2, Out.map, Out.bind]

example : (exCodec (.map [(b "a", .list [])])).jsonDec (b "json") = .ok (.map [(b "a", .list [])]) := rfl

/-- The conversions are reading in one format and writing in the other. -/
theorem fmtconvert_formats {readFile : Bytes → Except Unit Bytes} {file raw : Bytes} {f g : Format} (h : f ≠ g)
    (hf : file ≠ []) (hr : readFile file = .ok raw) :
    fmtconvert c ext readFile f.name g.name file = finish ((f.read c ext raw).bind fun v => g.write c v) := by
  have e1 : b "json" ≠ b "yaml" := by decide
  have e2 : b "json" ≠ b "hcl" := by decide
  have e3 : b "yaml" ≠ b "hcl" := by decide
  cases f <;> cases g <;> first
    | exact absurd rfl h
    | simp [fmtconvert, hf, hr, Format.name, e1, e2, e3, e1.symm, e2.symm, e3.symm, Format.read, Format.write,
        jsonToYaml, jsonToHcl, yamlToJson, yamlToHcl, hclToJson, hclToYaml]

theorem fmtconvert_other {readFile : Bytes → Except Unit Bytes} {src dst file : Bytes}
    (h : ∀ f g : Format, f ≠ g → src = f.name → dst = g.name → file ≠ [] → ∀ raw, readFile file ≠ .ok raw) :
    fmtconvert c ext readFile src dst file = .fail := by
  unfold fmtconvert
  split
  · rfl
  · rename_i hne
    split
    · rfl
    · rename_i hf
      split
      · rfl
      · rename_i raw hr
        have h' : ∀ f g : Format, src = f.name → dst = g.name → f = g := by
          intro f g h1 h2
          by_contra hfg
          exact h f g hfg h1 h2 hf raw hr
        split
        · rename_i h1
          split
          · rename_i h2; exact absurd (h' .json .yaml h1 h2) (by decide)
          · split
            · rename_i h2; exact absurd (h' .json .hcl h1 h2) (by decide)
            · rfl
        · split
          · rename_i h1
            split
            · rename_i h2; exact absurd (h' .yaml .json h1 h2) (by decide)
            · split
              · rename_i h2; exact absurd (h' .yaml .hcl h1 h2) (by decide)
              · rfl
          · split
            · rename_i h1
              split
              · rename_i h2; exact absurd (h' .hcl .json h1 h2) (by decide)
              · split
                · rename_i h2; exact absurd (h' .hcl .yaml h1 h2) (by decide)
                · rfl
            · rfl

/-- C70: the command prints a text and exits with success exactly if the two formats are known and differ, a
file is given and can be read, its text is of the first format and its data can be written in the second;
what it prints is then that writing and a line break. -/
theorem C70_done {readFile : Bytes → Except Unit Bytes} {src dst file out : Bytes} :
    fmtconvert c ext readFile src dst file = .done out ↔
      ∃ f g : Format, f ≠ g ∧ src = f.name ∧ dst = g.name ∧ file ≠ [] ∧
        ∃ raw v t, readFile file = .ok raw ∧ f.read c ext raw = .ok v ∧ g.write c v = .ok t ∧ out = t ++ [10] := by
  constructor
  · intro h
    by_cases hx : ∀ f g : Format, f ≠ g → src = f.name → dst = g.name → file ≠ [] → ∀ raw, readFile file ≠ .ok raw
    · rw [fmtconvert_other hx] at h; cases h
    · push Not at hx
      obtain ⟨f, g, hfg, rfl, rfl, hf, raw, hr⟩ := hx
      refine ⟨f, g, hfg, rfl, rfl, hf, raw, ?_⟩
      rw [fmtconvert_formats hfg hf hr] at h
      cases hv : f.read c ext raw with
      | ok v =>
        rw [hv] at h
        simp only [Out.bind] at h
        cases ht : g.write c v with
        | ok t => rw [ht] at h; cases h; exact ⟨v, t, hr, rfl, ht, rfl⟩
        | err => rw [ht] at h; cases h
        | panic => rw [ht] at h; cases h
        | unsupported => rw [ht] at h; cases h
      | err => rw [hv] at h; cases h
      | panic => rw [hv] at h; cases h
      | unsupported => rw [hv] at h; cases h
  · rintro ⟨f, g, hfg, rfl, rfl, hf, raw, v, t, hr, hv, ht, rfl⟩
    rw [fmtconvert_formats hfg hf hr, hv]
    simp only [Out.bind, ht, finish]

/-- C70: it reports an error if the formats are equal, one of them is unknown, or no file can be read. -/
theorem C70_fail {readFile : Bytes → Except Unit Bytes} {src dst file : Bytes}
    (h : src = dst ∨ src ∉ [b "json", b "yaml", b "hcl"] ∨ dst ∉ [b "json", b "yaml", b "hcl"] ∨
      file = [] ∨ readFile file = .error ()) :
    fmtconvert c ext readFile src dst file = .fail := by
  have hm : ∀ f : Format, f.name ∈ [b "json", b "yaml", b "hcl"] := by intro f; cases f <;> decide
  have hi : ∀ f g : Format, f.name = g.name → f = g := by intro f g; cases f <;> cases g <;> decide
  refine fmtconvert_other fun f g hfg h1 h2 hf raw hr => ?_
  subst h1 h2
  rcases h with h | h | h | h | h
  · exact hfg (hi f g h)
  · exact h (hm f)
  · exact h (hm g)
  · exact hf h
  · rw [h] at hr; cases hr

example : b "toml" ∉ [b "json", b "yaml", b "hcl"] := by decide

/-- C70: it crashes only if it reads HCL and the decoder panics. -/
theorem C70_crash {readFile : Bytes → Except Unit Bytes} {src dst file : Bytes}
    (h : fmtconvert c ext readFile src dst file = .crash) :
    src = b "hcl" ∧ ∃ raw, readFile file = .ok raw ∧ unmarshalMap ext raw [] = .panic := by
  by_cases hx : ∀ f g : Format, f ≠ g → src = f.name → dst = g.name → file ≠ [] → ∀ raw, readFile file ≠ .ok raw
  · rw [fmtconvert_other hx] at h; cases h
  · push Not at hx
    obtain ⟨f, g, hfg, rfl, rfl, hf, raw, hr⟩ := hx
    rw [fmtconvert_formats hfg hf hr] at h
    have hw : ∀ v, g.write c v ≠ .panic := by
      intro v
      cases g with
      | json => simp only [Format.write]; cases c.jsonEnc v <;> simp [Out.ofExcept]
      | yaml => simp only [Format.write]; cases c.yamlEnc v <;> simp [Out.ofExcept]
      | hcl => simp only [Format.write, hclEnc]; cases marshal v <;> simp [Out.ofExcept, Out.map, Out.bind]
    cases hv : f.read c ext raw with
    | ok v =>
      rw [hv] at h
      simp only [Out.bind] at h
      cases ht : g.write c v with
      | panic => exact absurd ht (hw v)
      | ok t => rw [ht] at h; cases h
      | err => rw [ht] at h; cases h
      | unsupported => rw [ht] at h; cases h
    | panic =>
      cases f with
      | json => simp only [Format.read] at hv; cases hj : c.jsonDec raw <;> rw [hj] at hv <;> cases hv
      | yaml => simp only [Format.read] at hv; cases hj : c.yamlDec raw <;> rw [hj] at hv <;> cases hv
      | hcl =>
        refine ⟨rfl, raw, hr, ?_⟩
        simp only [Format.read, hclDec] at hv
        cases hj : unmarshalMap ext raw [] with
        | panic => rfl
        | ok _ => rw [hj] at hv; cases hv
        | err => rw [hj] at hv; cases hv
        | unsupported => rw [hj] at hv; cases hv
    | err => rw [hv] at h; cases h
    | unsupported => rw [hv] at h; cases h

example : fmtconvert (exCodec (.map [(b "a", .int 1)])) exExt (fun _ => .ok (b "json")) (b "json") (b "hcl") (b "f") =
    .done (b "\n  a = 1\n\n") := by decide +kernel
example : fmtconvert (exCodec .nil) exExt (fun _ => .ok []) (b "hcl") (b "json") (b "f") = .crash := by decide +kernel

end Verif.Hcl
