import Verif.Proofs.ParserPieces
/-! # Every unambiguous template is parsed to the command it stands for -/

namespace Verif
open Spec (blank digit letter natOf digitVal marked markedLine Reader calm Piece Opt Param Place source optsSource
  paramsSource optsMeaning paramsMeaning meanings pathMeaning meaning together optsOk paramsOk)

theorem P.ok_bind {α β : Type} (a : α) (r : Str) (f : α → Str → P β) : (P.ok a r).bind f = f a r := rfl
theorem P.fail_bind {α β : Type} (f : α → Str → P β) : (P.fail : P α).bind f = .fail := rfl
theorem P.ok_or {α : Type} (a : α) (r : Str) (y : P α) : (P.ok a r).or y = .ok a r := rfl
theorem P.fail_or {α : Type} (y : P α) : P.fail.or y = y := rfl

section
variable {M : Spec.Marks} {al : Char → Bool}

/-- What comes after the value of an option, a default, a variable, or a wrapper. -/
structure Ends (M : Spec.Marks) (u : Str) : Prop where
  solid : Solid u
  noMark : NoMark u
  stop : u.head?.any (Place.inside.special M).contains = true
  begins : ∀ d, Begins M d → d.isPrefixOf u = false
  apart : u.head?.any M.wildcardWrap.contains = false

theorem Ends.stops {u : Str} (h : Ends M u) : Stops M.wildcardWrap (exOf M al .inside) u := by
  refine .inr (.inl ?_)
  have h := h.stop
  cases u with
  | nil => cases h
  | cons c u =>
    simp only [List.head?_cons, Option.any_some, exOf_eq] at h ⊢
    exact h

variable (hM : Fit M al)

include hM in
/-- A mark that ends a part. -/
theorem Ends.mark {d : Str} (hd : Closing M d) (hc : M.closes d = true) (u : Str) : Ends M (d ++ u) := by
  have hk := hM.mark d (.inr hd)
  refine ⟨mark_solid hk u, ?_, mark_any' hk hc u, fun a ha => clash_prefix (hM.apart a d ha hd),
    mark_any hk (hM.wrapHeads d (.inr hd)) u⟩
  refine mark_any hk ?_ u
  obtain ⟨c, r, rfl, -, -, h3⟩ := markOk_head hk
  have := hM.closing _ hd
  simp only [List.head?_cons, Option.any_some, Bool.or_eq_false_iff, beq_eq_false_iff_ne, ne_eq] at this ⊢
  refine ⟨h3, ?_⟩
  rintro rfl
  revert this
  decide

theorem closes_variantEnd {d : Str} (hd : d = M.variantEnd) (hk : Spec.markOk d = true) : M.closes d = true := by
  obtain ⟨c, r, rfl, -⟩ := markOk_head hk
  simp only [Spec.Marks.closes, Spec.beginsWith, List.head?_cons, Option.any_some, List.contains_iff_mem,
    Place.special, ← hd]
  simp

include hM in
theorem Ends.bar (u : Str) : Ends M (c!"|" ++ u) := by
  refine ⟨rfl, rfl, ?_, fun d hd => ?_, ?_⟩
  · simp [Place.special]
  · obtain ⟨c, r, rfl, -⟩ := markOk_head (hM.mark d (.inl hd))
    have := hM.head _ (.inl hd)
    refine isPrefixOf_head ?_ (by simp)
    rintro _ ⟨⟩ e
    simp only [List.cons_append, List.head?_cons, Option.some.injEq] at e
    subst e
    simp only [List.head?_cons, Option.any_some, Bool.or_eq_false_iff] at this
    exact absurd this.2 (by decide)
  · rw [Bool.eq_false_iff]
    intro h
    simp only [List.cons_append, List.head?_cons, Option.any_some, List.contains_iff_mem] at h
    exact hM.wrapChars _ h (by decide)

include hM in
theorem Ends.dollars (u : Str) : Ends M (c!"$$" ++ u) := by
  refine ⟨rfl, rfl, ?_, fun d hd => ?_, ?_⟩
  · simp [Place.special]
  · obtain ⟨h1, -, h3, h4⟩ := markOk_cases (hM.mark d (.inl hd))
    rw [Bool.eq_false_iff]
    intro h
    cases d with
    | nil => exact h1 rfl
    | cons c d =>
      simp only [List.cons_append, List.isPrefixOf, Bool.and_eq_true, beq_iff_eq] at h
      obtain ⟨rfl, h⟩ := h
      cases d with
      | nil => exact h4 rfl
      | cons e d =>
        simp only [List.nil_append, List.isPrefixOf, Bool.and_eq_true, beq_iff_eq] at h
        obtain ⟨rfl, h⟩ := h
        simp [hasSub] at h3
  · rw [Bool.eq_false_iff]
    intro h
    simp only [List.cons_append, List.head?_cons, Option.any_some, List.contains_iff_mem] at h
    exact hM.wrapChars _ h (by decide)

/-- `vp` reads templates inside other parts, up to a length. -/
def Reads (M : Spec.Marks) (n : Nat) (vp : Str → P Cmd) : Prop :=
  ∀ ps u s, Spec.ok .inside ps M = true → Ends M u → skip s = skip (source ps M ++ u) → (skip s).length < n →
    ∃ r, vp s = .ok (meaning ps) r ∧ skip r = u

/-- `pv` reads whole values of parameters, up to a length. -/
def ReadsAll (M : Spec.Marks) (n : Nat) (pv : Str → P Cmd) : Prop :=
  ∀ ps, Spec.ok .param ps M = true → (source ps M).length < n → ∃ r, pv (source ps M) = .ok (meaning ps) r

theorem head_append {a b : Str} {p : Char → Bool} (ha : a.head?.any p = false)
    (hb : b.head?.any p = false) : (a ++ b).head?.any p = false := by
  cases a with
  | nil => exact hb
  | cons c a => exact ha

theorem seqCmd_eq : ∀ cs : List Cmd, seqCmd cs = together cs
  | [] => rfl
  | [_] => rfl
  | _ :: _ :: _ => rfl

/-! ## White space and comments before a part -/

theorem gapOk_read {w : Str} (h : Spec.gapOk w = true) :
    ∃ ρ, Reader.out.read w = some ρ ∧ (ρ = .out ∨ ρ = .closed ∨ ρ = .line) ∧ (∀ R, LineEnd ρ R) ∧
      calm .out w = true := by
  simp only [Spec.gapOk, Spec.gap, Bool.and_eq_true, Bool.or_eq_true, beq_iff_eq] at h
  rcases h.1 with e | e
  · exact ⟨_, e, .inl rfl, fun R => by rintro ⟨⟩, h.2⟩
  · exact ⟨_, e, .inr (.inl rfl), fun R => by rintro ⟨⟩, h.2⟩

theorem gapOk_gap {w : Str} (h : Spec.gapOk w = true) : Spec.gap w = true := by
  simp only [Spec.gapOk, Bool.and_eq_true] at h
  exact h.1

theorem gap_append {a b : Str} (ha : Spec.gap a = true) (hb : Spec.gap b = true) :
    Spec.gap (a ++ b) = true := by
  simp only [Spec.gap, Bool.or_eq_true, beq_iff_eq] at ha hb ⊢
  rw [read_append]
  rcases ha with e | e
  · rw [e]; exact hb
  · rw [e]
    cases b with
    | nil => exact .inr rfl
    | cons c b =>
      show Reader.closed.read (c :: b) = _ ∨ Reader.closed.read (c :: b) = _
      rw [closed_read_cons]
      exact hb

/-- After white space and comments, what is not skipped. -/
theorem gap_skip {w R : Str} (h : Spec.gapOk w = true) (hR : comment R = none) :
    ∃ b, b.all isWs = true ∧ skip (w ++ R) = b ++ R := by
  obtain ⟨ρ, h1, h2, h3, -⟩ := gapOk_read h
  obtain ⟨b, hb, he⟩ := skip_gap h1 h2 (h3 R)
  exact ⟨b, hb, by rw [he, skip_none (by rw [comment_blank hb, hR])]⟩

include hM in
/-- A template with neither white space nor comments in front. -/
theorem front_facts {v : List Piece} {T : Str} (hv : Spec.ok .inside v M = true)
    (hf : Spec.upFront v = true) (hT : Solid T) (hm : NoMark T) :
    comment (source v M ++ T) = none ∧ (source v M ++ T).head?.any isWs = false := by
  cases v with
  | nil => rw [source]; exact ⟨hT.comment, hT.noWs⟩
  | cons p v =>
    by_cases hp : Piece.Proper p
    · rw [source, List.append_assoc]
      exact ⟨(proper_solid hM hp _).comment, (proper_solid hM hp _).noWs⟩
    · cases p with
      | note s => simp [Spec.upFront] at hf
      | text t =>
        have hne := (ok_cons hv).1
        rw [Piece.ok] at hne
        have hne := text_ne hne
        rw [source, Piece.source, List.append_assoc]
        refine ⟨text_comment hM hv hT (fun _ _ => hm), ?_⟩
        simp only [Spec.upFront, Spec.beginsWith, blank_eq, Bool.not_eq_true'] at hf
        cases t with
        | nil => exact absurd rfl hne
        | cons c t => exact hf
      | _ => exact absurd trivial hp

/-! ## Options -/

section
variable {n : Nat} {vp : Str → P Cmd} (hv : Reads M n vp)

/-- What follows an option. -/
def OptEnd (M : Spec.Marks) (T : Str) : Prop := ∃ u, T = c!"|" ++ u ∨ T = M.variantEnd ++ u

include hM in
theorem OptEnd.ends {T : Str} (h : OptEnd M T) : Ends M T := by
  obtain ⟨u, rfl | rfl⟩ := h
  · exact .bar hM u
  · exact .mark hM (.inl rfl) (closes_variantEnd rfl (hM.mark _ (.inr (.inl rfl)))) u

include hM in
theorem OptEnd.any {T : Str} (h : OptEnd M T) (q : Char → Bool) (h1 : q '|' = false)
    (h2 : M.variantEnd.head?.any q = false) : T.head?.any q = false := by
  obtain ⟨u, rfl | rfl⟩ := h
  · exact h1
  · exact mark_any (hM.mark _ (.inr (.inl rfl))) h2 u

include hM in
theorem closing_weight {d : Str} (hd : Closing M d) : d.head?.any Spec.weightChar = false := by
  obtain ⟨c, r, rfl, -⟩ := markOk_head (hM.mark d (.inr hd))
  have h1 := hM.head _ (.inr hd)
  have h2 := hM.closing _ hd
  simp only [List.head?_cons, Option.any_some, Bool.or_eq_false_iff] at h1 h2 ⊢
  refine Bool.or_eq_false_iff.2 ⟨h1.1.1.2, ?_⟩
  rw [Bool.eq_false_iff] at h2 ⊢
  intro h
  apply h2
  rw [List.contains_iff_mem] at h ⊢
  revert h
  simp only [List.mem_cons, List.not_mem_nil, or_false]
  rintro (h | h | h) <;> simp [h]

include hM in
theorem closing_symbol {d : Str} (hd : Closing M d) : d.head?.any Spec.symbol = false := by
  refine head_contains (hM.closing d hd) ?_
  intro c h
  rw [Spec.symbol, List.contains_iff_mem] at h
  revert h
  simp only [List.mem_cons, List.not_mem_nil, or_false]
  rintro (h | h | h) <;> simp [h]

include hM in
theorem mark_colon {d : Str} (hd : Begins M d ∨ Closing M d) {p : Char → Bool}
    (hp : ∀ c, p c = true → c ∈ c!":(|") : d.head?.any p = false := by
  refine head_imp (hM.head d hd) ?_
  intro c hc
  simp only [Bool.or_eq_false_iff] at hc
  rw [Bool.eq_false_iff]
  intro e
  exact absurd (List.contains_iff_mem.2 (hp c e)) (by rw [hc.2]; simp)

include hM in
theorem OptEnd.guarded {T : Str} (h : OptEnd M T) {d : Char} (hd : d = '$' ∨ d = ':') : Guarded d T := by
  refine .inert ?_ (.inl (h.any hM _ (by decide) (closing_weight hM (.inl rfl)))) (h.ends hM).solid.comment
  obtain ⟨u, rfl | rfl⟩ := h
  · rcases hd with rfl | rfl <;> rfl
  · have hk := hM.mark _ (.inr (.inl rfl))
    rcases hd with rfl | rfl
    · exact mark_dollar hk u
    · have := mark_any hk (mark_colon hM (.inr (.inl rfl)) (p := fun c => c == ':') (by simp)) u
      refine isPrefixOf_head ?_ (by simp)
      rintro _ ⟨⟩ e
      rw [e] at this
      simp at this

include hM in
theorem OptEnd.colon {T : Str} (h : OptEnd M T) : T.head?.any (fun c => c == ':') = false :=
  h.any hM _ rfl (mark_colon hM (.inr (.inl rfl)) (by simp))

theorem num_head_any {n : Spec.Num} (h : n.ok = true) {u : Str} (p : Char → Bool)
    (hp : ∀ c, isNum c = true → p c = false) (hd : p '.' = false) (hplus : p '+' = false)
    (hminus : p '-' = false) :
    (Spec.weightSource (some n) ++ u).head?.any p = false := by
  obtain ⟨w, d, sg⟩ := n
  cases d with
  | none =>
    simp only [Spec.Num.ok, Bool.and_eq_true, digit_eq, bne_iff_ne, ne_eq] at h
    simp only [Spec.weightSource, Spec.Num.source, List.append_assoc]
    exact num_head h.1 h.2 p hp
  | some d =>
    simp only [Spec.Num.ok, Bool.and_eq_true, digit_eq] at h
    simp only [Spec.weightSource, Spec.Num.source, List.append_assoc]
    have h4 := h.2
    simp only [List.contains_iff_mem, List.mem_cons, List.not_mem_nil, or_false] at h4
    rcases h4 with rfl | rfl | rfl
    · by_cases hw : w = []
      · subst hw; simpa using hd
      · exact num_head h.1.1.1 hw p hp
    · exact hplus
    · exact hminus

theorem num_not_ws {c : Char} (h : isNum c = true) : isWs c = false := by
  rw [Bool.eq_false_iff]
  intro hw
  simp only [isWs, Bool.or_eq_true, beq_iff_eq] at hw
  rcases hw with ((rfl | rfl) | rfl) | rfl <;> revert h <;> decide

theorem num_not_symbol {c : Char} (h : isNum c = true) : Spec.symbol c = false := by
  rw [Bool.eq_false_iff]
  intro hw
  simp only [Spec.symbol, List.contains_cons, List.contains_nil, Bool.or_false, Bool.or_eq_true,
    beq_iff_eq] at hw
  rcases hw with rfl | rfl | rfl <;> revert h <;> decide

theorem weight_solid {n : Spec.Num} (h : n.ok = true) (u : Str) : Solid (Spec.weightSource (some n) ++ u) := by
  refine num_head_any h _ (fun c hc => ?_) rfl rfl rfl
  have := num_solid (ds := [c]) (u := []) (by simp [hc]) (by simp)
  exact this

theorem weight_guarded {n : Spec.Num} (h : n.ok = true) (u : Str) :
    Guarded '$' (Spec.weightSource (some n) ++ u) := by
  have hd : ∀ {s : Str}, s.all digit = true → s.all Spec.weightChar = true := by
    intro s hs
    rw [digit_eq] at hs
    rw [List.all_eq_true] at hs ⊢
    exact fun c hc => num_weightChar (hs c hc)
  have hc : Guarded '$' (c!"::" ++ u) := .inert rfl (.inl (by show Spec.weightChar ':' = false; decide)) (Solid.comment rfl)
  have key : ∀ t : Str, t.all Spec.weightChar = true → Guarded '$' (t ++ (c!"::" ++ u)) := by
    intro t ht
    have he : t.dropWhile Spec.weightChar = [] := by
      have := dropWhile_all_append (b := []) ht
      simpa using this
    refine .text (.inl rfl) hc (fun _ => rfl) (by rw [he]; decide) ?_
    intro c r h
    rw [he] at h
    cases h
  obtain ⟨w, d, sg⟩ := n
  cases d with
  | none =>
    simp only [Spec.Num.ok, Bool.and_eq_true] at h
    rw [Spec.weightSource, Spec.Num.source, List.append_assoc]
    exact key _ (hd h.1)
  | some d =>
    simp only [Spec.Num.ok, Bool.and_eq_true] at h
    rw [Spec.weightSource, Spec.Num.source, List.append_assoc]
    refine key _ ?_
    have h4 := h.2
    rw [List.all_append, List.all_append, List.all_append, hd h.1.1.1, hd h.1.1.2]
    simp only [List.contains_iff_mem, List.mem_cons, List.not_mem_nil, or_false] at h4
    rcases h4 with rfl | rfl | rfl <;> decide

/-- The white space and the comments before an option. -/
def optWhite : Opt → Str
  | .mk w _ _ => w

theorem opt_source (o : Opt) : o.source M = optWhite o ++ o.body M := by
  obtain ⟨w, n, v⟩ := o
  rw [Opt.source, optWhite, Opt.body, List.append_assoc]

theorem optWhite_ok {o : Opt} (h : o.ok M = true) : Spec.gapOk (optWhite o) = true := by
  obtain ⟨w, n, v⟩ := o
  cases n with
  | none =>
    rw [Opt.ok] at h
    simp only [Bool.and_eq_true] at h
    exact h.1.1.1
  | some n =>
    rw [Opt.ok] at h
    simp only [Bool.and_eq_true] at h
    exact h.1.1

include hM in
theorem body_front {o : Opt} (h : o.ok M = true) {T : Str} (hT : OptEnd M T) :
    comment (o.body M ++ T) = none ∧ (o.body M ++ T).head?.any isWs = false := by
  obtain ⟨w, n, v⟩ := o
  rw [Opt.body]
  cases n with
  | none =>
    rw [Opt.ok] at h
    simp only [Bool.and_eq_true] at h
    exact front_facts hM h.1.1.2 h.1.2 (hT.ends hM).solid (hT.ends hM).noMark
  | some n =>
    rw [Opt.ok] at h
    simp only [Bool.and_eq_true] at h
    rw [List.append_assoc]
    exact ⟨(weight_solid h.1.2 _).comment, (weight_solid h.1.2 _).noWs⟩

variable (hF : M.fenced = true)

include hM hF in
theorem body_safe {o : Opt} (h : o.ok M = true) {T : Str} (hm : NoMark T) (hT : Safe T) :
    Safe (o.body M ++ T) := by
  obtain ⟨w, n, v⟩ := o
  rw [Opt.body, List.append_assoc]
  cases n with
  | none =>
    rw [Opt.ok] at h
    simp only [Bool.and_eq_true] at h
    exact safeL hM hF v (by simp) h.1.1.2 (fun _ => hm) hT
  | some n =>
    rw [Opt.ok] at h
    simp only [Bool.and_eq_true] at h
    exact .hards (safeL hM hF v (by simp) h.2 (fun _ => hm) hT) (weight_hard h.1.2)

include hM hF in
theorem opt_safe {o : Opt} (h : o.ok M = true) {T : Str} (hm : NoMark T) (hT : Safe T) :
    Safe (o.source M ++ T) := by
  rw [opt_source, List.append_assoc]
  obtain ⟨ρ, h1, h2, h3, h4⟩ := gapOk_read (optWhite_ok h)
  exact .gap h1 h2 (h3 _) h4 (body_safe hM hF h hm hT)

include hM hF in
theorem opts_safe : ∀ {os : List Opt} {T : Str}, optsOk os M = true → NoMark T → Safe T →
    Safe (optsSource os M ++ T)
  | [], _, _, _, hT => by rw [optsSource]; exact hT
  | o :: os, T, h, hm, hT => by
    rw [optsOk] at h
    simp only [Bool.and_eq_true] at h
    rw [optsSource]; simp only [List.append_assoc]
    have hm' : NoMark (optsSource os M ++ T) := by
      cases os with
      | nil => rw [optsSource]; exact hm
      | cons o os => rw [optsSource]; rfl
    exact .hards (opt_safe hM hF h.1 hm' (opts_safe h.2 hm hT)) (by decide)

include hM in
theorem body_guarded {o : Opt} (h : o.ok M = true) {T : Str} (hT : OptEnd M T) : Guarded '$' (o.body M ++ T) := by
  obtain ⟨w, n, v⟩ := o
  rw [Opt.body, List.append_assoc]
  cases n with
  | none =>
    rw [Opt.ok] at h
    simp only [Bool.and_eq_true] at h
    exact guardL hM (.inl rfl) (hT.ends hM).noMark (hT.colon hM) (hT.guarded hM (.inl rfl)) v h.1.1.2 (by rintro ⟨⟩)
  | some n =>
    rw [Opt.ok] at h
    simp only [Bool.and_eq_true] at h
    exact weight_guarded h.1.2 _

include hM in
theorem opt_guarded {o : Opt} (h : o.ok M = true) {T : Str} (hT : OptEnd M T) : Guarded '$' (o.source M ++ T) := by
  rw [opt_source, List.append_assoc]
  obtain ⟨ρ, h1, h2, h3, -⟩ := gapOk_read (optWhite_ok h)
  exact .gap (.inl rfl) h1 h2 (h3 _) (body_guarded hM h hT)

include hM in
theorem opt_optWs {o : Opt} (h : o.ok M = true) {T : Str} (hT : OptEnd M T) :
    optWs (o.source M ++ T) = o.body M ++ T := by
  rw [opt_source, List.append_assoc]
  exact optWs_gap (gapOk_gap (optWhite_ok h)) (body_front hM h hT).1 (body_front hM h hT).2

include hM in
theorem body_optWs {o : Opt} (h : o.ok M = true) {T : Str} (hT : OptEnd M T) :
    optWs (o.body M ++ T) = o.body M ++ T :=
  optWs_of_skip (skip_none (body_front hM h hT).1) (body_front hM h hT).2

include hM hv in
theorem optionTok_ok {o : Opt} (h : o.ok M = true) {T : Str} (hT : OptEnd M T) {s : Str}
    (hs : optWs s = o.body M ++ T) (hn : (o.body M ++ T).length < n) : optionTok vp s = .ok o.meaning T := by
  have hsk := skip_none (body_front hM h hT).1
  unfold optionTok
  dsimp only
  rw [hs]
  obtain ⟨w, wt, v⟩ := o
  have hT2 : ∀ {r : Str}, skip r = T → optWs r = T := fun e => optWs_of_skip e (hT.ends hM).solid.noWs
  rw [Opt.body] at hsk hn ⊢
  cases wt with
  | none =>
    rw [Opt.ok] at h
    simp only [Bool.and_eq_true] at h
    simp only [Spec.weightSource, List.nil_append] at hn hsk ⊢
    rw [weightTok_fail (guardL hM (.inr rfl) (hT.ends hM).noMark (hT.colon hM) (hT.guarded hM (.inr rfl)) v h.1.1.2 fun _ => h.2)]
    simp only [P.opt, P.ok_bind]
    obtain ⟨r, hr1, hr2⟩ := hv v T (skip (source v M ++ T)) h.1.1.2 (hT.ends hM) (skip_skip _)
      (by rw [skip_skip, hsk]; exact hn)
    rw [hr1, P.ok_bind, hT2 hr2, Opt.meaning]
    rfl
  | some wt =>
    rw [Opt.ok] at h
    simp only [Bool.and_eq_true] at h
    simp only [List.append_assoc] at hsk hn ⊢
    rw [weightTok_ok h.1.2 hsk]
    simp only [P.opt, P.ok_bind]
    have hl := skip_length (source v M ++ T)
    obtain ⟨r, hr1, hr2⟩ := hv v T (source v M ++ T) h.2 (hT.ends hM) rfl
      (by rw [List.length_append] at hn; omega)
    rw [hr1, P.ok_bind, hT2 hr2, Opt.meaning]
    rfl

theorem optsSource_end (os : List Opt) (u : Str) : OptEnd M (optsSource os M ++ (M.variantEnd ++ u)) := by
  cases os with
  | nil => rw [optsSource]; exact ⟨_, .inr rfl⟩
  | cons o os => rw [optsSource]; simp only [List.append_assoc]; exact ⟨_, .inl rfl⟩

include hM hv in
theorem options_loop {u : Str} : ∀ (os : List Opt) (k : Nat), optsOk os M = true →
    (optsSource os M ++ (M.variantEnd ++ u)).length ≤ n → (optsSource os M).length < k →
    many (fun _ => false) (fun s => (tok c!"|" s).bind fun _ s => optionTok vp s) k
      (optsSource os M ++ (M.variantEnd ++ u)) = .ok (optsMeaning os) (M.variantEnd ++ u)
  | _, 0, _, _, hk => absurd hk (Nat.not_lt_zero _)
  | [], k + 1, _, _, _ => by
    rw [optsSource, List.nil_append]
    unfold many
    have hk := hM.mark M.variantEnd (.inr (.inl rfl))
    rw [tok_fail (s := M.variantEnd ++ u) (by
      rw [Solid.skip (mark_solid hk u)]
      have := mark_any hk (mark_colon hM (.inr (.inl rfl)) (p := fun c => c == '|') (by simp)) u
      refine isPrefixOf_head ?_ (by simp)
      rintro _ ⟨⟩ e
      rw [e] at this
      simp at this), optsMeaning]
    rfl
  | o :: os, k + 1, h, hn, hk => by
    rw [optsOk] at h
    simp only [Bool.and_eq_true] at h
    rw [optsSource] at hn hk ⊢
    simp only [List.append_assoc] at hn hk ⊢
    have hn1 : (o.source M ++ (optsSource os M ++ (M.variantEnd ++ u))).length < n := by
      rw [List.length_append] at hn
      have : c!"|".length = 1 := rfl
      omega
    unfold many
    rw [tok_ok c!"|" (s := c!"|" ++ (o.source M ++ (optsSource os M ++ (M.variantEnd ++ u)))) (Solid.skip rfl)]
    simp only [P.ok_bind, Bool.false_eq_true, if_false]
    rw [optionTok_ok hM hv h.1 (optsSource_end os u) (opt_optWs hM h.1 (optsSource_end os u))
      (by rw [opt_source, List.append_assoc, List.length_append] at hn1; omega)]
    dsimp only
    rw [options_loop os k h.2]
    · rw [P.ok_bind, optsMeaning]
    · rw [List.length_append] at hn1; omega
    · simp only [List.length_append, List.length_cons] at hk; omega

include hM hv in
theorem optionsTok_ok {o : Opt} {os : List Opt} {u : Str} (ho : o.ok M = true) (hos : optsOk os M = true)
    {s : Str} (hs : optWs s = o.body M ++ (optsSource os M ++ (M.variantEnd ++ u)))
    (hn : (o.body M ++ (optsSource os M ++ (M.variantEnd ++ u))).length < n) :
    optionsTok vp s = .ok (o.meaning :: optsMeaning os) (M.variantEnd ++ u) := by
  unfold optionsTok
  rw [optionTok_ok hM hv ho (optsSource_end os u) hs hn]
  rw [P.ok_bind, ((optsSource_end os u).ends hM).solid.skip, options_loop hM hv os _ hos]
  · rfl
  · rw [List.length_append] at hn; omega
  · rw [List.length_append]; omega

/-! ## Variants -/

theorem variantCmd_eq (m : Option Method) (b : Option (Spec.Bound × Option Str))
    (opts : List (Cmd × Rat)) :
    variantCmd m (b.map fun x => (toSpec x.1, x.2.getD c!",")) opts = Spec.variantOf m b opts := by
  cases b with
  | none => rfl
  | some b =>
    obtain ⟨b, sep⟩ := b
    simp only [Option.map_some, variantCmd, Spec.variantOf, Cmd.mkVariant, normBounds]
    cases b <;> simp only [toSpec, BoundSpec.bounds, Spec.Bound.ends] <;> congr 1 <;> omega

theorem bound_head {b : Spec.Bound} (h : b.ok = true) {u : Str} (p : Char → Bool)
    (hp : ∀ c, isNum c = true → p c = false) (hd : p '-' = false) :
    (b.source ++ u).head?.any p = false := by
  cases b with
  | exact n =>
    obtain ⟨h1, h2⟩ := numeral_iff.1 h
    exact num_head h1 h2 p hp
  | between lo hi =>
    simp only [Spec.Bound.ok, Bool.and_eq_true] at h
    obtain ⟨h1, h2⟩ := numeral_iff.1 h.1
    simp only [Spec.Bound.source, List.append_assoc]
    exact num_head h1 h2 p hp
  | upTo hi => exact hd
  | atLeast lo =>
    obtain ⟨h1, h2⟩ := numeral_iff.1 h
    simp only [Spec.Bound.source, List.append_assoc]
    exact num_head h1 h2 p hp

theorem boundSource_head {b : Spec.Bound × Option Str} (h : Spec.boundOk (some b) M = true) {u : Str}
    (p : Char → Bool) (hp : ∀ c, isNum c = true → p c = false) (hd : p '-' = false) :
    (Spec.boundSource (some b) ++ u).head?.any p = false := by
  obtain ⟨b, sep⟩ := b
  cases sep with
  | none =>
    simp only [Spec.boundOk, Bool.and_eq_true] at h
    simp only [Spec.boundSource, List.append_assoc]
    exact bound_head h.1 p hp hd
  | some sep =>
    simp only [Spec.boundOk, Bool.and_eq_true] at h
    simp only [Spec.boundSource, List.append_assoc]
    exact bound_head h.1 p hp hd

theorem boundSource_solid {b : Spec.Bound × Option Str} (h : Spec.boundOk (some b) M = true) (u : Str) :
    Solid (Spec.boundSource (some b) ++ u) := by
  refine boundSource_head h _ (fun c hc => ?_) rfl
  exact num_solid (ds := [c]) (u := []) (by simp [hc]) (by simp)

theorem method_solid (m : Method) (u : Str) : Solid (Spec.methodSource (some m) ++ u) := by
  cases m <;> rfl

include hM hv in
theorem variantsTok_ok  {l : Place} {w : Str} {m : Option Method}
    {b : Option (Spec.Bound × Option Str)} {o : Opt} {more : List Opt} {s u : Str}
    (h : (Piece.choice w m b o more).ok l M = true)
    (hs : skip s = (Piece.choice w m b o more).source M ++ u)
    (hn : ((Piece.choice w m b o more).source M ++ u).length ≤ n) :
    variantsTok (.of M al) vp s = .ok (Piece.choice w m b o more).meaning u := by
  rw [Piece.ok] at h
  simp only [Bool.and_eq_true] at h
  obtain ⟨⟨⟨⟨hw, hb⟩, ho⟩, hos⟩, hsym⟩ := h
  rw [Piece.source] at hs hn
  simp only [List.append_assoc] at hs hn
  have hend := optsSource_end (M := M) more u
  have hmark : NoMark (optsSource more M ++ (M.variantEnd ++ u)) := (hend.ends hM).noMark
  have hke := hM.mark M.variantEnd (.inr (.inl rfl))
  have hendM : Ends M (M.variantEnd ++ u) := OptEnd.ends hM ⟨u, .inr rfl⟩
  have hsafeT : M.fenced = true → Safe (optsSource more M ++ (M.variantEnd ++ u)) := fun hF =>
    opts_safe hM hF hos hendM.noMark (mark_safe hke (.inl (fenced_opening hF (.inr rfl))))
  have hO := opt_optWs hM ho hend
  have hX := body_optWs hM ho hend
  have hXs : skip (o.body M ++ (optsSource more M ++ (M.variantEnd ++ u))) = o.body M ++ (optsSource more M ++ (M.variantEnd ++ u)) :=
    skip_none (body_front hM ho hend).1
  have hnX : (o.body M ++ (optsSource more M ++ (M.variantEnd ++ u))).length < n := by
    rw [opt_source] at hn
    obtain ⟨c, r, e, -⟩ := markOk_head (hM.mark M.variantStart (.inl (.inr (.inl rfl))))
    rw [e] at hn
    simp only [List.length_append, List.length_cons] at hn ⊢
    omega
  have hfin : optWs (M.variantEnd ++ u) = M.variantEnd ++ u := optWs_solid hendM.solid
  -- what happens after the symbol and the bound
  have key : ∀ (s : Str), optWs s = o.body M ++ (optsSource more M ++ (M.variantEnd ++ u)) →
      ((optionsTok vp (optWs s)).bind fun opts s =>
        (tok (ParserCfg.of M al).variantEnd (optWs s)).bind fun _ s =>
          P.ok (variantCmd m (b.map fun x => (toSpec x.1, x.2.getD c!",")) opts) s) =
      .ok (Piece.choice w m b o more).meaning u := by
    intro s hs
    rw [hs, optionsTok_ok hM hv ho hos hX hnX]
    rw [P.ok_bind, hfin]
    show (tok M.variantEnd (M.variantEnd ++ u)).bind _ = _
    rw [tok_ok M.variantEnd (s := M.variantEnd ++ u) hendM.solid.skip, P.ok_bind, variantCmd_eq, Piece.meaning]
  -- what happens after the symbol, with a bound or without
  have key2 : ∀ s : Str, (b ≠ none →
        skip s = skip (Spec.boundSource b ++ (o.source M ++ (optsSource more M ++ (M.variantEnd ++ u))))) →
      (b = none → Guarded '$' s ∧ optWs s = o.body M ++ (optsSource more M ++ (M.variantEnd ++ u))) →
      ((P.opt (boundExpr s) (skip s)).bind fun bd s => (optionsTok vp (optWs s)).bind fun opts s =>
        (tok (ParserCfg.of M al).variantEnd (optWs s)).bind fun _ s =>
          P.ok (variantCmd m bd opts) s) = .ok (Piece.choice w m b o more).meaning u := by
    intro s hs hnone
    cases b with
    | none =>
      obtain ⟨hg, hws⟩ := hnone rfl
      rw [boundExpr_fail hg]
      have hws' : optWs (skip s) = o.body M ++ (optsSource more M ++ (M.variantEnd ++ u)) := by
        rw [← hws]; unfold optWs; rw [skip_skip]
      have k := key _ hws'
      simp only [Option.map_none] at k
      simp only [P.opt, P.ok_bind]
      exact k
    | some b =>
      have hs := hs (by simp)
      rw [(boundSource_solid hb _).skip] at hs
      obtain ⟨bl, hbl, hsk⟩ := gap_skip (optWhite_ok ho) (body_front hM ho hend).1
      rw [← List.append_assoc, ← opt_source] at hsk
      obtain ⟨r, hr1, hr2⟩ := boundExpr_ok (sep := b.2) hb hs hsk hbl (fun hF => body_safe hM hF ho hmark (hsafeT hF))
      rw [hr1]
      rw [hO] at hr2
      have k := key _ hr2
      simp only [Option.map_some] at k
      simp only [P.opt, P.ok_bind]
      exact k
  unfold variantsTok
  show (tok M.variantStart _).bind _ = _
  rw [tok_ok M.variantStart hs]
  simp only [P.ok_bind]
  cases m with
  | some m =>
    have hws : optWs (w ++ (Spec.methodSource (some m) ++ (Spec.boundSource b ++
        (o.source M ++ (optsSource more M ++ (M.variantEnd ++ u)))))) = Spec.methodSource (some m) ++
        (Spec.boundSource b ++ (o.source M ++ (optsSource more M ++ (M.variantEnd ++ u)))) :=
      optWs_gap (gapOk_gap hw) (method_solid m _).comment (method_solid m _).noWs
    rw [hws, samplerTok_ok (method_solid m _).skip]
    refine key2 _ (fun _ => rfl) ?_
    rintro rfl
    exact ⟨opt_guarded hM ho hend, hO⟩
  | none =>
    rw [show Spec.methodSource none = [] from rfl, List.nil_append]
    cases b with
    | some b =>
      have hws : optWs (w ++ (Spec.boundSource (some b) ++
          (o.source M ++ (optsSource more M ++ (M.variantEnd ++ u))))) =
          (Spec.boundSource (some b) ++ (o.source M ++ (optsSource more M ++ (M.variantEnd ++ u)))) :=
        optWs_gap (gapOk_gap hw) (boundSource_solid hb _).comment (boundSource_solid hb _).noWs
      rw [hws, samplerTok_fail (by
        rw [(boundSource_solid hb _).skip]; exact boundSource_head hb _ (fun c => num_not_symbol) rfl)]
      exact key2 _ (fun _ => skip_skip _) (by rintro ⟨⟩)
    | none =>
      rw [show Spec.boundSource none = [] from rfl, List.nil_append]
      have hws : optWs (w ++ (o.source M ++ (optsSource more M ++ (M.variantEnd ++ u)))) =
          o.body M ++ (optsSource more M ++ (M.variantEnd ++ u)) := by
        rw [opt_source, List.append_assoc, ← List.append_assoc w]
        exact optWs_gap (gap_append (gapOk_gap hw) (gapOk_gap (optWhite_ok ho))) (body_front hM ho hend).1
          (body_front hM ho hend).2
      have hsy : (o.body M ++ (optsSource more M ++ (M.variantEnd ++ u))).head?.any Spec.symbol = false := by
        refine head_append ?_ (hend.any hM _ rfl (closing_symbol hM (.inl rfl)))
        simpa only [Option.isSome_none, Bool.false_or, Bool.not_eq_true', Spec.beginsWith] using hsym
      rw [hws, samplerTok_fail (by rw [hXs]; exact hsy), hXs]
      exact key2 _ (fun h => absurd rfl h) fun _ => ⟨body_guarded hM ho hend, hX⟩

end
end
end Verif
