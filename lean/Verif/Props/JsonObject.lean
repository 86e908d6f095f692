import Verif.Lemmas.JsonObject
import Verif.Props.JsonText

/-! # C80: objects restored from any JSON text that describes them -/

namespace Srl.Props
open Rfc8259 Typed Doc PJson

/-- C80: a JSON text that describes an object of a type – members in any order, blanks anywhere, numbers in any
notation, further members, optional ones missing – is restored as an object it describes, when the document is loaded
first; and also while it is read, if it has no arrays and objects where the type has no place for them
(`Known`; see `json_object_unknown`). What follows the text does not matter. What is missing besides: what C79 says
about characters written by their numbers and large numbers, large integers written with a fraction or exponent
(`json_object_integer`), and documents nested deeper than 129 levels. -/
theorem json_object_partial (m : Mem) (hm : m.Sane) (env : Env) (hr : Rfc8259.Rounds env.strtod) (ty : Ty) (hok : ty.Ok)
    (hs : ty.isScope = true) (old o' : Obj) (t rest : Bytes) (x : Json) (h : DocumentOf false ReadableExactly t x)
    (hd : x.depth ≤ 129) (ho : ObjFor ty old o' x) (rd : Rd) (fuel : Nat) (hf : (t ++ rest).length < fuel) :
    ∃ o, ObjFor ty old o x ∧
      loadUnwrap env (PJson.read m env.strtod) fuel ty old (rd.clear, t ++ rest) = .ok o ∧
      (WT ty old → Known ty x → direct env (PJson.read m env.strtod) fuel ty old (rd.clear, t ++ rest) = .ok o) := by
  obtain ⟨st, kids, r', ws, h1, h2, h3, h4, h5⟩ := document_emits hm env.strtod (N := ReadableExactly) (P := NumFor)
    (fun t neg v hn => number_exactly env.strtod hr hn) h ((objFor_kind ty _ _ _ ho).trans hs) rd rest
  have hdep : Item.depthL kids ≤ maxDepth := by
    rw [Item.depth] at h3
    unfold maxDepth
    omega
  have hfuel : (Item.eventsL kids).length < fuel := by omega
  have hload := load_item (PJson.read m env.strtod) [] st kids fuel _ _ h5 hfuel
  rw [if_pos hdep] at hload
  obtain ⟨o, g1, g2⟩ := node_for env ty old o' x [] st kids hs hok ho h2
  have hun : loadUnwrap env (PJson.read m env.strtod) fuel ty old (rd.clear, t ++ rest) = .ok o := by
    simp only [loadUnwrap, hload, Res.ok_bind, unwrap, hs, if_true, g1]
  refine ⟨o, g2, hun, fun hw hk => ?_⟩
  rw [restore_is_load_partial env _ fuel ty old [] st kids _ _ h5 hok hw
    (fits_for ty old o' x [] st kids hok ho hk h2).1 hdep hfuel, hun]

/-- C80: what is described without floating point numbers is described once, so the object above is the one meant. -/
theorem described_once (ty : Ty) (hok : ty.Ok) (hn : ty.NoFp) (old o o' : Obj) (x : Json) (h : ObjFor ty old o x)
    (h' : ObjFor ty old o' x) : o = o' := objFor_unique ty old o o' x hok hn h h'

/-- C80: what is described is an object of the type. -/
theorem described_typed (ty : Ty) (hok : ty.Ok) (old o : Obj) (x : Json) (hw : WT ty old) (h : ObjFor ty old o x) :
    WT ty o := objFor_wt ty old o x hok hw h

/-! ## Violations and examples -/

private theorem ws_none : Ws [] := by intro c h; cases h

private theorem below {n k : Nat} (h1 : Fp.mag 52 n = k * Fp.one) (h2 : n < Fp.inf64 - 1) :
    (k : ℚ) < (Dec.dbl (Fp.inf64 - 1) + Dec.dbl Fp.inf64) / 2 := by
  have h3 := Dec.dbl_lt h2
  have h4 : Dec.dbl (Fp.inf64 - 1) ≤ Dec.dbl Fp.inf64 := Dec.dbl_le (Nat.sub_le _ _)
  rw [dbl_integral h1] at h3
  linarith

theorem digit_readable (c : UInt8) (h : Dec.isDigit c = true) : ReadableExactly [c] false ((c.toNat - 48 : ℕ) : ℚ) := by
  have hlt : c.toNat - 48 < 2 ^ 53 := by
    have : c.toNat ≤ 57 := by simp only [Dec.isDigit, decide_eq_true_eq] at h; exact h.2
    omega
  obtain ⟨n, hn, he⟩ := exact_double (m := c.toNat - 48) (.inl hlt)
  have hd : Digits [c] := ⟨by simp, by simp [h]⟩
  refine ⟨⟨⟨[c], [], [], [], 0, ⟨hd, fun hc => by simp at hc; rw [hc]⟩, .inl ⟨rfl, rfl⟩, .inl ⟨rfl, rfl⟩, rfl, ?_⟩,
    fun _ => ?_, ?_⟩, .inl ?_⟩
  · simp [Dec.num]
  · exact_mod_cast Nat.lt_trans hlt (by decide)
  · obtain ⟨n, hn, he⟩ := exact_double (m := 2 ^ 53 - 1) (.inl (by decide))
    have h1 : ((2 ^ 53 - 1 : ℕ) : ℚ) < (Dec.dbl (Fp.inf64 - 1) + Dec.dbl Fp.inf64) / 2 :=
      below (n := 0x433FFFFFFFFFFFFF) (by decide +kernel) (by decide)
    have h2 : ((c.toNat - 48 : ℕ) : ℚ) ≤ ((2 ^ 53 - 1 : ℕ) : ℚ) := by exact_mod_cast (by omega)
    exact lt_of_le_of_lt h2 h1
  · exact_mod_cast hlt

private theorem oneFor (k : ℕ) (hk : k < 2 ^ 31) : ObjFor (.int .i32) (.int 0) (.int k) (.num false k) :=
  ⟨k, false, k, rfl, rfl, by simp [signed], by show (-(2 ^ 31 : ℤ)) ≤ _; omega, by show (k : ℤ) ≤ 2 ^ 31 - 1; omega⟩

/-- Negation of C80 for restoring while reading: behind an object with an array it has no member for, elements are
lost. -/
theorem json_object_unknown : ∃ (t : Bytes) (x : Json) (o : Obj), DocumentOf false ReadableExactly t x ∧
    (Ty.vec xTy).Ok ∧ ObjFor (.vec xTy) (.many []) o x ∧ o = .many [.many [.int 1], .many [.int 2]] ∧
    loadUnwrap env0 jread 100 (.vec xTy) (.many []) (Rd.new.clear, t) = .ok o ∧
    direct env0 jread 100 (.vec xTy) (.many []) (Rd.new.clear, t) = .ok (.many [.many [.int 1]]) := by
  refine ⟨str "[{\"x\":1,\"u\":[]},{\"x\":2}]", .arr [.obj [(str "x", .num false (1 : ℕ)), (str "u", .arr [])],
    .obj [(str "x", .num false (2 : ℕ))]], _, ?_, ?_, ?_, rfl, isObj_eq (by decide +kernel), isObj_eq (by decide +kernel)⟩
  · have cx : Chars false (str "x") (str "x") := chars_bare _ _ (by unfold Bare; decide +kernel)
    have cu : Chars false (str "u") (str "u") := chars_bare _ _ (by unfold Bare; decide +kernel)
    have n1 : ReadableExactly [49] false ((1 : ℕ) : ℚ) := digit_readable 49 (by decide)
    have n2 : ReadableExactly [50] false ((2 : ℕ) : ℚ) := digit_readable 50 (by decide)
    have e1 := Text.obj (uni := false) _ _ (.more [] _ _ [] [] _ [] _ _ _ ws_none cx ws_none ws_none (.num _ _ _ n1) ws_none
      (.one [] _ _ [] [] _ [] _ ws_none cu ws_none ws_none (.arr0 _ ws_none) ws_none))
    have e2 := Text.obj (uni := false) _ _ (.one [] _ _ [] [] _ [] _ ws_none cx ws_none ws_none (.num _ _ _ n2) ws_none)
    have a := Text.arr (uni := false) _ _ (.more [] _ [] _ _ _ ws_none e1 ws_none (.one [] _ [] _ ws_none e2 ws_none))
    exact ⟨[], _, [], by decide +kernel, ws_none, a, ws_none⟩
  · simp only [xTy, Ty.Ok, Fields.Ok, Fields.Named, Fields.names]
    repeat' apply And.intro
    all_goals first | trivial | (left; decide +kernel)
  · refine ⟨_, _, rfl, rfl, .cons _ _ _ _ ?_ (.cons _ _ _ _ ?_ .nil)⟩
    · exact ⟨_, _, _, rfl, rfl, rfl, by decide +kernel, .int 0, [], _, [], rfl, rfl,
        .inl ⟨_, List.mem_cons_self, oneFor 1 (by decide)⟩, rfl, rfl⟩
    · exact ⟨_, _, _, rfl, rfl, rfl, by decide +kernel, .int 0, [], _, [], rfl, rfl,
        .inl ⟨_, List.mem_cons_self, oneFor 2 (by decide)⟩, rfl, rfl⟩

/-- Negation of C80: integers from `2^53` up written with a fraction are restored as others, if no double is exact. -/
theorem json_object_integer (env : Env) (hr : Rfc8259.Rounds env.strtod) :
    Document (str "[18014398509481985.0]") (.arr [.num false 18014398509481985]) ∧
    ObjFor (.vec (.int .u64)) (.many []) (.many [.int 18014398509481985]) (.arr [.num false 18014398509481985]) ∧
    loadUnwrap env (PJson.read ⟨some 0, 2 ^ 20⟩ env.strtod) 100 (.vec (.int .u64)) (.many [])
      (Rd.new.clear, str "[18014398509481985.0]") = .ok (.many [.int 18014398509481984]) := by
  have hn : Number (str "18014398509481985.0") false 18014398509481985 :=
    ⟨str "18014398509481985", str ".0", str "0", [], 0, ⟨⟨by decide +kernel, by decide +kernel⟩, by decide +kernel⟩,
      .inr ⟨by decide +kernel, by decide +kernel, by decide +kernel⟩, .inl ⟨rfl, rfl⟩, by decide +kernel, by
        have : Dec.num (str "18014398509481985" ++ str "0") = 180143985094819850 := by decide +kernel
        rw [this]
        have : (str "0").length = 1 := by decide +kernel
        rw [this]
        norm_num⟩
  have htext : ∀ N, N (str "18014398509481985.0") false 18014398509481985 → ∀ uni,
      DocumentOf uni N (str "[18014398509481985.0]") (.arr [.num false 18014398509481985]) := fun N h uni =>
    ⟨[], _, [], by decide +kernel, ws_none, .arr _ _ (.one [] _ [] _ ws_none (.num _ _ _ h) ws_none), ws_none⟩
  have hu : ∀ n, Dec.Nearest 18014398509481985 n → n = 0x4350000000000000 := by
    intro n h
    have h1 := h.2 0x4350000000000000 (by decide)
    have e0 : Dec.dbl 0x4350000000000000 = (18014398509481984 : ℕ) := dbl_integral (by decide +kernel)
    have e1 : Dec.dbl 0x434FFFFFFFFFFFFF = (18014398509481982 : ℕ) := dbl_integral (by decide +kernel)
    have e2 : Dec.dbl 0x4350000000000001 = (18014398509481988 : ℕ) := dbl_integral (by decide +kernel)
    rw [e0] at h1
    have h2 : |(18014398509481985 : ℚ) - ((18014398509481984 : ℕ) : ℚ)| = 1 := by norm_num
    rw [h2] at h1
    have h3 := abs_le.mp h1
    rcases Nat.lt_trichotomy n 0x4350000000000000 with hlt | he | hgt
    · have := Dec.dbl_le (a := n) (b := 0x434FFFFFFFFFFFFF) (by omega)
      rw [e1] at this
      norm_num at this h3
      linarith [h3.2]
    · exact he
    · have := Dec.dbl_le (a := 0x4350000000000001) (b := n) (by omega)
      rw [e2] at this
      norm_num at this h3
      linarith [h3.1]
  refine ⟨htext _ hn _, ⟨_, _, rfl, rfl, .cons _ _ _ _ ⟨_, _, _, rfl, rfl, by simp [signed], by decide, by decide⟩ .nil⟩, ?_⟩
  obtain ⟨n, h1, h2⟩ := hr _ _ _ hn (by
    have := below (n := 0x4350000000000001) (k := 18014398509481988) (by decide +kernel) (by decide)
    norm_num at this ⊢
    linarith)
  rw [hu n h1] at h2
  obtain ⟨W, hW⟩ : ∃ W, W = Fp.ofDouble (Fp.join64 false 0x4350000000000000) := ⟨_, rfl⟩
  obtain ⟨st, kids, r', ws, h1, h2, h3, h4, h5⟩ := document_emits (m := ⟨some 0, 2 ^ 20⟩) (by unfold Mem.Sane; decide)
    env.strtod (N := fun t neg v => t = str "18014398509481985.0" ∧ neg = false ∧ v = 18014398509481985)
    (P := fun _ _ w => w = W)
    (fun t neg v ht => by
      obtain ⟨rfl, rfl, rfl⟩ := ht
      exact ⟨hn, _, strToType_real env.strtod _ _ (by decide +kernel) (number_chars hn) (.inl (by decide +kernel)) h2, hW.symm⟩)
    (htext _ ⟨rfl, rfl, rfl⟩ _) rfl Rd.new []
  rw [List.append_nil] at h4 h5
  cases h2 with
  | arr _ _ _ hi =>
    cases hi with
    | cons _ _ i _ is hi his =>
      cases his
      cases hi with
      | val _ _ w hw =>
        have hw : w = W := hw
        subst hw
        have hl := load_item (PJson.read ⟨some 0, 2 ^ 20⟩ env.strtod) [] _ _ 100 _ _ h5 (by simp [Item.eventsL, Item.events])
        rw [if_pos (by simp [Item.depthL, Item.depth, maxDepth])] at hl
        simp only [loadUnwrap, hl, Res.ok_bind]
        have he : Fp.ofDouble (Fp.join64 false 0x4350000000000000) = .fp32 0x5A800000 := by decide +kernel
        have hp : Apply.apply (.int .u64) (.fp32 0x5A800000) = .ok 18014398509481984 := by decide +kernel
        rw [hW, he]
        simp only [unwrap, Ty.isScope, if_true, pasteNode, Item.contentL, Item.addTo, List.nil_append, mapRes, pasteVal, Apply.paste, hp, Res.ok_bind,
          Bool.false_eq_true, if_false]

/-- Not vacuous: blanks, escapes, a fraction with an exponent for an integer, an optional member that is missing, a
member of the text that the type does not have, an array and text of base64. -/
example : ∃ (ty : Ty) (old o : Obj) (x : Json) (env : Env), Rfc8259.Rounds env.strtod ∧ ty.Ok ∧ ty.isScope = true ∧
    ty.NoFp ∧ WT ty old ∧ Known ty x ∧ x.depth ≤ 129 ∧
    DocumentOf false ReadableExactly (str " {\"u\":3, \"v\" :[2.50e1\t,7],\"s\":\"\\/\",\"b\":\"QQ==\"}\n") x ∧
    old = .many [.many [], .str [], .int 42, .str []] ∧
    o = .many [.many [.int 25, .int 7], .str (str "/"), .int 42, .str (str "A")] ∧ ObjFor ty old o x := by
  obtain ⟨strtod, hr⟩ := rounds_some
  have n3 : ReadableExactly [51] false ((3 : ℕ) : ℚ) := digit_readable 51 (by decide)
  have n7 : ReadableExactly [55] false ((7 : ℕ) : ℚ) := digit_readable 55 (by decide)
  have n25 : ReadableExactly (str "2.50e1") false ((25 : ℕ) : ℚ) := by
    refine ⟨⟨⟨[50], [46, 53, 48], [53, 48], [101, 49], 1, ⟨⟨by simp, by decide +kernel⟩, by simp⟩,
      .inr ⟨rfl, by simp, by decide +kernel⟩, .inr ⟨101, [], [49], .inl rfl, ⟨by simp, by decide +kernel⟩, rfl,
        .inl ⟨rfl, by decide +kernel⟩⟩, by decide +kernel, ?_⟩, fun h => ?_, ?_⟩, .inl (by norm_num)⟩
    · have : Dec.num ([50] ++ [53, 48]) = 250 := by decide +kernel
      rw [this]; norm_num
    · exact absurd (h 46 (by decide +kernel)) (by decide +kernel)
    · exact below (n := 0x4039000000000000) (by decide +kernel) (by decide +kernel)
  have cu : Chars false (str "u") (str "u") := chars_bare _ _ (by unfold Bare; decide +kernel)
  have cv : Chars false (str "v") (str "v") := chars_bare _ _ (by unfold Bare; decide +kernel)
  have cs : Chars false (str "s") (str "s") := chars_bare _ _ (by unfold Bare; decide +kernel)
  have cb : Chars false (str "b") (str "b") := chars_bare _ _ (by unfold Bare; decide +kernel)
  have cq : Chars false (str "QQ==") (str "QQ==") := chars_bare _ _ (by unfold Bare; decide +kernel)
  have ce : Chars false (str "\\/") (str "/") := .escape 47 47 _ _ (by decide) .nil
  have w1 : Ws [32] := by unfold Ws; decide +kernel
  have w2 : Ws [9] := by unfold Ws; decide +kernel
  have w3 : Ws [10] := by unfold Ws; decide +kernel
  have a := Text.arr (uni := false) _ _ (.more [] _ [9] _ _ _ ws_none (.num _ _ _ n25) w2
    (.one [] _ [] _ ws_none (.num _ _ _ n7) ws_none))
  have t := Text.obj _ _ (.more [] _ _ [] [] _ [] _ _ _ ws_none cu ws_none ws_none (.num _ _ _ n3) ws_none
    (.more [32] _ _ [32] [] _ [] _ _ _ w1 cv w1 ws_none a ws_none
    (.more [] _ _ [] [] _ [] _ _ _ ws_none cs ws_none ws_none (.str _ _ ce) ws_none
    (.one [] _ _ [] [] _ [] _ ws_none cb ws_none ws_none (.str _ _ cq) ws_none))))
  refine ⟨.record .object false (.cons (str "v") false (.vec (.int .i32)) (.cons (str "s") false .str
    (.cons (str "z") true (.int .i32) (.cons (str "b") false .bytes .nil)))), _, _, _, { env0 with strtod := strtod },
    hr, ?_, rfl, ?_, ?_, ?_, ?_, ⟨[32], _, [10], by decide +kernel, w1, t, w3⟩, rfl, rfl, ?_⟩
  · simp only [Ty.Ok, Fields.Ok, Fields.Named, Fields.names]
    repeat' apply And.intro
    all_goals first | trivial | (left; decide +kernel)
  · simp [Ty.NoFp, Fields.NoFp]
  · simp only [WT, WTL, List.not_mem_nil]
    exact ⟨fun _ h => h.elim, trivial, ⟨by decide, by decide⟩, trivial, trivial⟩
  · intro ms hms y hy hsc
    obtain rfl := Json.obj.inj hms
    simp only [List.mem_cons, List.not_mem_nil, or_false] at hy
    rcases hy with rfl | rfl | rfl | rfl
    · cases hsc
    · exact .inl ⟨rfl, rfl, fun js hjs x hx => by simp [Known]⟩
    · cases hsc
    · cases hsc
  · decide
  · refine ⟨_, _, _, rfl, rfl, rfl, by decide +kernel, ?_⟩
    refine ⟨_, _, _, _, rfl, rfl, .inl ⟨_, .tail _ (.head _), _, _, rfl, rfl, .cons _ _ _ _ (oneFor 25 (by decide))
      (.cons _ _ _ _ (oneFor 7 (by decide)) .nil)⟩, ?_⟩
    refine ⟨_, _, _, _, rfl, rfl, .inl ⟨_, .tail _ (.tail _ (.head _)), _, rfl, rfl⟩, ?_⟩
    refine ⟨_, _, _, _, rfl, rfl, .inr ⟨rfl, by decide +kernel, rfl⟩, ?_⟩
    exact ⟨_, _, _, _, rfl, rfl, .inl ⟨_, .tail _ (.tail _ (.tail _ (.head _))), _, rfl,
      congrArg Json.str (by decide +kernel)⟩, rfl, rfl⟩

end Srl.Props
