import Verif.Lemmas.JsonCommentStream
import Verif.Props.JsonStream

/-! # C83: comments in JSON texts are skipped

The grammar with comments is in `Verif/Props/JsonCommentSpec.lean`. The property is: a text that is JSON with comments
(`Commented`) is read as the tree it stands for, as C79 says of texts without them. -/

namespace Srl.Props
open Rfc8259 Typed Doc PJson Srl.Stream

private theorem chars_uni {t s : Bytes} (h : Chars false t s) : Chars true t s := by
  induction h with
  | nil => exact .nil
  | plain b t s h1 h2 h3 _ ih => exact .plain b t s h1 h2 h3 ih
  | escape e r t s h1 _ ih => exact .escape e r t s h1 ih
  | unit c h t s h1 => cases h1
  | pair c h l t s h1 => cases h1

private theorem gap_uni {t : Bytes} (h : Gap true t) : Gap false t := by
  induction h with
  | nil => exact .nil
  | blank b t hb _ ih => exact .blank b t hb ih
  | line c e t hc he _ ih => exact .line c e t hc he ih
  | block c t hc _ _ ih => exact .block c t hc (by simp) ih

private theorem behind_uni {x : Json} {t : Bytes} (h : Behind true x t) : Behind false x t := ⟨gap_uni h.1, by simp⟩

mutual
private theorem text_uni : ∀ {t : Bytes} {x : Json}, CText true false Readable t x → CText false true Number t x
  | _, _, .null => .null
  | _, _, .true => .true
  | _, _, .false => .false
  | _, _, .num _ _ _ h => .num _ _ _ h.1
  | _, _, .str _ _ h => .str _ _ (chars_uni h)
  | _, _, .arr0 _ h => .arr0 _ (gap_uni h)
  | _, _, .arr _ _ h => .arr _ _ (elems_uni h)
  | _, _, .obj0 _ h => .obj0 _ (gap_uni h)
  | _, _, .obj _ _ h => .obj _ _ (members_uni h)
private theorem elems_uni : ∀ {t : Bytes} {xs : List Json}, CElems true false Readable t xs → CElems false true Number t xs
  | _, _, .one _ _ _ _ h1 h2 h3 => .one _ _ _ _ (gap_uni h1) (text_uni h2) (behind_uni h3)
  | _, _, .more _ _ _ _ _ _ h1 h2 h3 h4 => .more _ _ _ _ _ _ (gap_uni h1) (text_uni h2) (behind_uni h3) (elems_uni h4)
private theorem members_uni : ∀ {t : Bytes} {ms : List (Bytes × Json)}, CMembers true false Readable t ms →
    CMembers false true Number t ms
  | _, _, .one _ _ _ _ _ _ _ _ h1 h2 h3 h4 h5 h6 =>
    .one _ _ _ _ _ _ _ _ (gap_uni h1) (chars_uni h2) (gap_uni h3) (gap_uni h4) (text_uni h5) (behind_uni h6)
  | _, _, .more _ _ _ _ _ _ _ _ _ _ h1 h2 h3 h4 h5 h6 h7 =>
    .more _ _ _ _ _ _ _ _ _ _ (gap_uni h1) (chars_uni h2) (gap_uni h3) (gap_uni h4) (text_uni h5) (behind_uni h6)
      (members_uni h7)
end

/-- What the library reads is a part of JSON with comments. -/
theorem readable_commented {t : Bytes} {x : Json} (h : CDocumentOf true false Readable t x) : Commented t x := by
  obtain ⟨a, u, b, h1, h2, h3, h4⟩ := h
  exact ⟨a, u, b, h1, gap_uni h2, text_uni h3, gap_uni h4⟩

private theorem gap_ws (apart : Bool) {w : Bytes} (h : Ws w) : Gap apart w := by
  induction w with
  | nil => exact .nil
  | cons b w ih => exact .blank b w (h b List.mem_cons_self) (ih fun c hc => h c (List.mem_cons_of_mem _ hc))

private theorem behind_ws (apart : Bool) (x : Json) {w : Bytes} (h : Ws w) : Behind apart x w := by
  refine ⟨gap_ws apart h, fun _ _ => ?_⟩
  induction w with
  | nil => exact ⟨[], [], rfl, by simp, .inl rfl⟩
  | cons b w ih =>
    rcases h b List.mem_cons_self with hb | hb
    · exact ⟨[], b :: w, rfl, by simp, .inr (by rw [hb]; rfl)⟩
    · obtain ⟨v, r, h1, h2, h3⟩ := ih fun c hc => h c (List.mem_cons_of_mem _ hc)
      refine ⟨b :: v, r, by rw [h1]; rfl, fun c hc => ?_, h3⟩
      rcases List.mem_cons.mp hc with rfl | hc
      · exact hb
      · exact h2 c hc

section
variable (apart : Bool) {uni : Bool} {N : Bytes → Bool → ℚ → Prop}
mutual
private theorem text_bare : ∀ {t : Bytes} {x : Json}, Text uni N t x → CText apart uni N t x
  | _, _, .null => .null
  | _, _, .true => .true
  | _, _, .false => .false
  | _, _, .num _ _ _ h => .num _ _ _ h
  | _, _, .str _ _ h => .str _ _ h
  | _, _, .arr0 _ h => .arr0 _ (gap_ws apart h)
  | _, _, .arr _ _ h => .arr _ _ (elems_bare h)
  | _, _, .obj0 _ h => .obj0 _ (gap_ws apart h)
  | _, _, .obj _ _ h => .obj _ _ (members_bare h)
private theorem elems_bare : ∀ {t : Bytes} {xs : List Json}, Elems uni N t xs → CElems apart uni N t xs
  | _, _, .one _ _ _ _ h1 h2 h3 => .one _ _ _ _ (gap_ws apart h1) (text_bare h2) (behind_ws apart _ h3)
  | _, _, .more _ _ _ _ _ _ h1 h2 h3 h4 =>
    .more _ _ _ _ _ _ (gap_ws apart h1) (text_bare h2) (behind_ws apart _ h3) (elems_bare h4)
private theorem members_bare : ∀ {t : Bytes} {ms : List (Bytes × Json)}, Members uni N t ms → CMembers apart uni N t ms
  | _, _, .one _ _ _ _ _ _ _ _ h1 h2 h3 h4 h5 h6 =>
    .one _ _ _ _ _ _ _ _ (gap_ws apart h1) h2 (gap_ws apart h3) (gap_ws apart h4) (text_bare h5) (behind_ws apart _ h6)
  | _, _, .more _ _ _ _ _ _ _ _ _ _ h1 h2 h3 h4 h5 h6 h7 =>
    .more _ _ _ _ _ _ _ _ _ _ (gap_ws apart h1) h2 (gap_ws apart h3) (gap_ws apart h4) (text_bare h5)
      (behind_ws apart _ h6) (members_bare h7)
end
end

/-- Texts without comments are texts with comments, of the same meaning: C83 says at least what C79 says. -/
theorem json_is_commented (apart : Bool) {uni : Bool} {N : Bytes → Bool → ℚ → Prop} {t : Bytes} {x : Json}
    (h : DocumentOf uni N t x) : CDocumentOf apart uni N t x := by
  obtain ⟨a, u, b, h1, h2, h3, h4⟩ := h
  exact ⟨a, u, b, h1, gap_ws apart h2, text_bare apart h3, gap_ws apart h4⟩

/-- C83: a JSON text with comments is read as the tree it stands for. Blanks and comments behind it and what follows
are left. What is missing, besides what C79 says: comments behind numbers, truth values and `null` need a blank in front
of them (`comment_behind_number`), no comment may begin with `/*/` (`comment_slash`), and none may follow a `*/` at once
(`comment_twice`). -/
theorem comments_skipped_partial (m : Mem) (hm : m.Sane) (strtod : Bytes → Option UInt64) (hr : Rfc8259.Rounds strtod)
    (t : Bytes) (x : Json) (h : CDocumentOf true false Readable t x) (hx : x.isScope = true) (hd : x.depth ≤ 129)
    (old : Rd) (rest : Bytes) : ∃ root r' gap, Gap true gap ∧ loadWith m strtod old (t ++ rest) = .ok (root, r', gap ++ rest) ∧
      NodeRead x root.node := by
  obtain ⟨n, r', ws, h1, h2, h3⟩ := cdocument_read hm strtod hr h hx old rest
  rw [if_pos (by unfold maxDepth; exact hd)] at h3
  exact ⟨_, r', ws, h1, h3, h2⟩

/-- C83: objects are restored from JSON texts with comments as from those without (C80). -/
theorem comments_object_partial (m : Mem) (hm : m.Sane) (env : Env) (hr : Rfc8259.Rounds env.strtod) (ty : Ty) (hok : ty.Ok)
    (hs : ty.isScope = true) (old o' : Obj) (t rest : Bytes) (x : Json) (h : CDocumentOf true false ReadableExactly t x)
    (hd : x.depth ≤ 129) (ho : ObjFor ty old o' x) (rd : Rd) (fuel : Nat) (hf : (t ++ rest).length < fuel) :
    ∃ o, ObjFor ty old o x ∧
      loadUnwrap env (PJson.read m env.strtod) fuel ty old (rd.clear, t ++ rest) = .ok o ∧
      (WT ty old → Known ty x → direct env (PJson.read m env.strtod) fuel ty old (rd.clear, t ++ rest) = .ok o) := by
  obtain ⟨st, kids, r', ws, h1, h2, h3, h4, h5⟩ := cdocument_emits hm env.strtod (N := ReadableExactly) (P := NumFor)
    (fun t neg v hn => number_exactly env.strtod hr hn) h ((objFor_kind ty _ _ _ ho).trans hs) rd rest
  have hdep : Item.depthL kids ≤ maxDepth := by
    rw [Item.depth] at h3
    unfold maxDepth
    omega
  have hfuel : (Item.eventsL kids).length < fuel := by omega
  have hload := load_item (PJson.read m env.strtod) [] st kids fuel _ _ h5 hfuel
  rw [if_pos hdep] at hload
  obtain ⟨o, g1, g2⟩ := node_for env ty old o' x [] st kids hs hok ho h2
  have hun : loadUnwrap env (PJson.read m env.strtod) fuel ty old (rd.clear, t ++ rest) = .ok o := by
    simp only [loadUnwrap, hload, Res.ok_bind, unwrap, hs, if_true, g1]
  refine ⟨o, g2, hun, fun hw hk => ?_⟩
  rw [restore_is_load_partial env _ fuel ty old [] st kids _ _ h5 hok hw
    (fits_for ty old o' x [] st kids hok ho hk h2).1 hdep hfuel, hun]

private def mem0 : Mem := ⟨some 0, 0⟩
private theorem mem0_sane : mem0.Sane := by show 0 < 2 ^ 63; decide
private theorem mem0_harmless : Harmless mem0 := ⟨0, rfl, by decide, by decide⟩

/-- C83 with a stream: comments of any length are skipped wherever the buffer has to be refilled. What is missing: as in
`comments_skipped_partial` and `json_input_stream_partial`. -/
theorem comments_stream_partial (strtod : Bytes → Option UInt64) (hr : Rfc8259.Rounds strtod) (t : Bytes) (x : Json)
    (h : CDocumentOf true false (fun t neg v => Readable t neg v ∧ t.length ≤ 800) t x) (hx : x.isScope = true)
    (hd : x.depth ≤ 129) (hruns : Runs t) (cap : Nat) (hc : t.length + 1024 ≤ cap) (old : SIn) :
    ∃ root, PJson.loadS cap strtod old t = .ok root ∧ NodeRead x root.node := by
  have h' : CDocumentOf true false Readable t x := cdocumentOf_imp (fun _ _ _ h => h.1) h
  obtain ⟨root, r', ws, h1, h2, h3⟩ := comments_skipped_partial mem0 mem0_sane strtod hr t x h' hx hd Rd.new []
  rw [List.append_nil] at h2
  refine ⟨root, json_stream_accepts_partial mem0 mem0_sane mem0_harmless strtod cap old t hc
    (cdocument_below mem0_sane strtod (fun t neg v hn => ?_) rfl h hx hruns _) root ?_, h3⟩
  · obtain ⟨w, h4, -⟩ := number_read strtod hr hn.1
    exact ⟨hn.1.1, hn.2, w, h4⟩
  · show value (loadWith mem0 strtod Rd.new t) = _
    rw [h2]
    rfl

/-! ### Violations and examples -/

/-- A check of what is read that can be computed -/
private def readTo (res : Res (Root × Rd × Bytes)) (vs : List Val) : Bool :=
  match res with
  | .ok (⟨[], .mk .array ws []⟩, _, []) => ws == vs.map fun v => ([], v)
  | _ => false

private theorem readTo_ok {res : Res (Root × Rd × Bytes)} {vs : List Val} (h : readTo res vs = true) :
    ∃ r', res = .ok (⟨[], .mk .array (vs.map fun v => ([], v)) []⟩, r', []) := by
  unfold readTo at h
  split at h
  · exact ⟨_, by rw [beq_iff_eq.mp h]⟩
  · cases h

private theorem digit_number (c : UInt8) (h : Dec.isDigit c = true) : Number [c] false ((c.toNat - 48 : ℕ) : ℚ) :=
  (digit_readable c h).1.1

private theorem not_in {c : Bytes} (h : (47 : UInt8) ∉ c) : ∀ x y, c ≠ x ++ 42 :: 47 :: y := by
  rintro x y rfl
  exact h (by simp)

private theorem slash_not_in : ∀ x y : Bytes, str "/1," ≠ x ++ 42 :: 47 :: y := by
  intro x y h
  have : (42 : UInt8) ∈ str "/1," := by rw [h]; simp
  exact absurd this (by decide +kernel)

/-- Negation of C83: a comment at once behind a number makes the text invalid, of either kind and with a line end
between. -/
theorem comment_behind_number : ∃ x, Commented (str "[1/**/]") x ∧ Commented (str "[1\n//\n]") x ∧
    load ⟨some 0, 2 ^ 20⟩ (fun _ => none) (str "[1/**/]") = .err ∧
    load ⟨some 0, 2 ^ 20⟩ (fun _ => none) (str "[1\n//\n]") = .err := by
  have n1 := digit_number 49 (by decide)
  refine ⟨.arr [.num false ((49 - 48 : ℕ) : ℚ)], ?_, ?_, Res.eq_err (by decide +kernel), Res.eq_err (by decide +kernel)⟩
  · have g : Gap false (str "/**/") := .block [] [] (not_in (by simp)) (by simp) .nil
    exact ⟨[], _, [], by decide +kernel, .nil, .arr _ _ (.one [] _ _ _ .nil (.num _ _ _ n1) ⟨g, by simp⟩), .nil⟩
  · have g : Gap false (str "\n//\n") := .blank 10 _ (by decide) (.line [] 10 [] (by simp) (.inl rfl) .nil)
    exact ⟨[], _, [], by decide +kernel, .nil, .arr _ _ (.one [] _ _ _ .nil (.num _ _ _ n1) ⟨g, by simp⟩), .nil⟩

/-- Negation of C83: of two comments following each other at once, the second reaches to the end of the line: what is
between is lost. -/
theorem comment_twice : ∃ x, Commented (str "[/**//**/1,\n2]") x ∧
    ∃ w r', load ⟨some 0, 2 ^ 20⟩ (fun _ => none) (str "[/**//**/1,\n2]") = .ok (⟨[], w⟩, r', []) ∧ ¬ NodeRead x w := by
  have n1 := digit_number 49 (by decide)
  have n2 := digit_number 50 (by decide)
  refine ⟨.arr [.num false ((49 - 48 : ℕ) : ℚ), .num false ((50 - 48 : ℕ) : ℚ)], ?_, ?_⟩
  · have g : Gap false (str "/**//**/") :=
      .block [] (str "/**/") (not_in (by simp)) (by simp) (.block [] [] (not_in (by simp)) (by simp) .nil)
    have e : Gap false [10] := .blank 10 _ (by decide) .nil
    exact ⟨[], _, [], by decide +kernel, .nil, .arr _ _ (.more _ _ [] _ _ _ g (.num _ _ _ n1) ⟨.nil, by simp⟩
      (.one [10] _ [] _ e (.num _ _ _ n2) ⟨.nil, by simp⟩)), .nil⟩
  · obtain ⟨r', h⟩ := readTo_ok (res := load ⟨some 0, 2 ^ 20⟩ (fun _ => none) (str "[/**//**/1,\n2]"))
      (vs := [.int .u64 2]) (by decide +kernel)
    refine ⟨_, r', h, fun hr => ?_⟩
    cases hr with
    | arr _ _ _ hf =>
      cases hf with
      | val _ _ _ _ _ _ _ hf => cases hf

/-- Negation of C83: a comment beginning with `/*/` ends there. -/
theorem comment_slash : ∃ x, Commented (str "[/*/1,*/2]") x ∧
    ∃ w r', load ⟨some 0, 2 ^ 20⟩ (fun _ => none) (str "[/*/1,*/2]") = .ok (⟨[], w⟩, r', []) ∧ ¬ NodeRead x w := by
  have n2 := digit_number 50 (by decide)
  refine ⟨.arr [.num false ((50 - 48 : ℕ) : ℚ)], ?_, ?_⟩
  · have g : Gap false (str "/*/1,*/") := .block (str "/1,") [] slash_not_in (by simp) .nil
    exact ⟨[], _, [], by decide +kernel, .nil, .arr _ _ (.one _ _ [] _ g (.num _ _ _ n2) ⟨.nil, by simp⟩), .nil⟩
  · obtain ⟨r', h⟩ := readTo_ok (res := load ⟨some 0, 2 ^ 20⟩ (fun _ => none) (str "[/*/1,*/2]"))
      (vs := [.int .u64 1, .int .u64 2]) (by decide +kernel)
    refine ⟨_, r', h, fun hr => ?_⟩
    cases hr with
    | arr _ _ _ hf =>
      cases hf with
      | val _ _ _ _ _ _ _ hf => cases hf

/-- Not vacuous: comments of both kinds everywhere, also behind numbers, with asterisks and slashes in them -/
example : ∃ (t : Bytes) (x : Json) (o : Obj),
    t = str "// a\n{/* b **/\"v\"/*c*/: /* \" / * */ [5 /* d */,// e\r\n7 // f\n]/**/}/* g */ " ∧
    CDocumentOf true false (fun t neg v => ReadableExactly t neg v ∧ t.length ≤ 800) t x ∧
    x.isScope = true ∧ x.depth ≤ 129 ∧ Runs t ∧
    ObjFor (.record .object false (.cons (str "v") false (.vec (.int .i32)) .nil)) (.many [.many []]) o x ∧
    Known (.record .object false (.cons (str "v") false (.vec (.int .i32)) .nil)) x ∧
    o = .many [.many [.int (5 : ℕ), .int (7 : ℕ)]] := by
  have n5 : ReadableExactly [53] false (5 : ℕ) ∧ ([53] : Bytes).length ≤ 800 :=
    ⟨digit_readable 53 (by decide), by decide⟩
  have n7 : ReadableExactly [55] false (7 : ℕ) ∧ ([55] : Bytes).length ≤ 800 :=
    ⟨digit_readable 55 (by decide), by decide⟩
  have cv : Chars false (str "v") (str "v") := chars_bare _ _ (by unfold Bare; decide +kernel)
  have ga : Gap true (str "// a\n") := .line (str " a") 10 [] (by decide +kernel) (.inl rfl) .nil
  have gb : Gap true (str "/* b **/") := .block (str " b *") [] (not_in (by decide +kernel)) (by decide +kernel) .nil
  have gc : Gap true (str "/*c*/") := .block (str "c") [] (not_in (by decide +kernel)) (by decide +kernel) .nil
  have gq : Gap true (str " /* \" / * */ ") := by
    refine .blank 32 _ (by decide) (.block (str " \" / * ") [32] ?_ (by decide +kernel) (.blank 32 [] (by decide) .nil))
    intro x y h
    have h0 : str " \" / * " = [32, 34, 32, 47, 32, 42, 32] := by decide +kernel
    rw [h0] at h
    have hx : x.length ≤ 5 := by
      have := congrArg List.length h
      simp only [List.length_append, List.length_cons, List.length_nil] at this
      omega
    have hc : ∀ i, i ≤ 5 → ([32, 34, 32, 47, 32, 42, 32] : Bytes).drop i = 42 :: 47 :: y → False := by
      intro i hi hd
      match i, hi with
      | 0, _ => cases hd
      | 1, _ => cases hd
      | 2, _ => cases hd
      | 3, _ => cases hd
      | 4, _ => cases hd
      | 5, _ => cases hd
    exact hc x.length hx (by rw [h]; simp)
  have gd : Behind true (.num false (5 : ℕ)) (str " /* d */") :=
    ⟨.blank 32 _ (by decide) (.block (str " d ") [] (not_in (by decide +kernel)) (by decide +kernel) .nil),
      fun _ _ => ⟨[], _, rfl, by simp, .inr (by decide +kernel)⟩⟩
  have ge : Gap true (str "// e\r\n") :=
    .line (str " e") 13 [10] (by decide +kernel) (.inr rfl) (.blank 10 [] (by decide) .nil)
  have gf : Behind true (.num false (7 : ℕ)) (str " // f\n") :=
    ⟨.blank 32 _ (by decide) (.line (str " f") 10 [] (by decide +kernel) (.inl rfl) .nil),
      fun _ _ => ⟨[], _, rfl, by simp, .inr (by decide +kernel)⟩⟩
  have gn : ∀ xs, Behind true (.arr xs) (str "/**/") := fun xs =>
    ⟨.block [] [] (not_in (by simp)) (by decide) .nil, by simp [Json.isWord]⟩
  have gg : Gap true (str "/* g */ ") :=
    .block (str " g ") [32] (not_in (by decide +kernel)) (by decide +kernel) (.blank 32 [] (by decide) .nil)
  have a := CText.arr (apart := true) (uni := false) (N := fun t neg v => ReadableExactly t neg v ∧ t.length ≤ 800) _ _
    (.more [] _ _ _ _ _ .nil (.num _ _ _ n5) gd (.one _ _ _ _ ge (.num _ _ _ n7) gf))
  have d := CText.obj _ _ (.one _ _ _ _ _ _ _ _ gb cv gc gq a (gn _))
  refine ⟨_, _, _, rfl, ⟨_, _, _, by decide +kernel, ga, d, gg⟩, rfl, by decide, runs_small (by decide +kernel),
    ⟨_, _, _, rfl, rfl, rfl, by decide +kernel, _, _, _, _, rfl, rfl, .inl ⟨_, .head _, _, _, rfl, rfl,
      .cons _ _ _ _ ⟨_, _, _, rfl, rfl, by simp [signed], by decide, by decide⟩
      (.cons _ _ _ _ ⟨_, _, _, rfl, rfl, by simp [signed], by decide, by decide⟩ .nil)⟩, rfl, rfl⟩, ?_, rfl⟩
  intro ms hms y hy hsc
  obtain rfl := Json.obj.inj hms
  simp only [List.mem_cons, List.not_mem_nil, or_false] at hy
  subst hy
  exact .inl ⟨rfl, rfl, fun js hjs x hx => by simp [Known]⟩

end Srl.Props
