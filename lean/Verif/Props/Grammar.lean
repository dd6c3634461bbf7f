import Verif.Proofs.ParserGrammar
/-!
# Properties of rejected templates (C76)
-/

namespace Verif.Props
open Verif
open Verif.Spec (Notes Gap Mark MethodAt BoundAt BoundsAt WeightAt TextAt ParamAt RawParam Readable Place Marks)

/-! ## C76 -/

/-- **C76.**  The parser accepts only what is written in the grammar: whatever a text is parsed as, for any marks,
the text (with tabs expanded) can be read as it with the grammar, from its beginning to its end. -/
theorem accepted_in_grammar (M : Marks) (al : Char → Bool) (s : Str) (c : Cmd) (h : parse (.of M al) s = .ok c) :
    Readable M al (.template c) (expandTabs 0 s) [] := parse_readable h

/-- `r` is the end of `s`, and in what comes before it every `{` is closed by a later `}`. -/
def Closed (s r : Str) : Prop :=
  ∃ u, s = u ++ r ∧ ∀ a b, u = a ++ b → b.count '{' ≤ b.count '}'

namespace Closed

theorem refl (s : Str) : Closed s s := ⟨[], rfl, fun a b h => by
  obtain ⟨_, rfl⟩ := List.append_eq_nil_iff.1 h.symm
  simp⟩

theorem trans {s t r : Str} (h : Closed s t) (h' : Closed t r) : Closed s r := by
  obtain ⟨u, rfl, hu⟩ := h
  obtain ⟨v, rfl, hv⟩ := h'
  refine ⟨u ++ v, by simp, fun a b hab => ?_⟩
  rcases List.append_eq_append_iff.1 hab with ⟨x, rfl, hx⟩ | ⟨x, rfl, hx⟩
  · exact hv x b hx
  · subst hx
    have := hu a x rfl
    have := hv [] v rfl
    simp only [List.count_append]
    omega

theorem free {u r : Str} (h : '{' ∉ u) : Closed (u ++ r) r := ⟨u, rfl, fun a b hab => by
  have : '{' ∉ b := fun hm => h (by rw [hab]; exact List.mem_append_right _ hm)
  rw [List.count_eq_zero.2 this]
  omega⟩

/-- A part in braces. -/
theorem braces {d s r : Str} (hd : '{' ∉ d) (h : Closed s (c!"}" ++ r)) : Closed (d ++ (c!"{" ++ s)) r := by
  obtain ⟨u, rfl, hu⟩ := h
  have key : ∀ a b, c!"{" ++ u ++ c!"}" = a ++ b → b.count '{' ≤ b.count '}' := by
    intro a b hab
    cases a with
    | nil =>
      have := hu [] u rfl
      rw [List.nil_append] at hab
      rw [← hab]
      simp only [List.count_append]
      have e1 : List.count '{' c!"{" = 1 := rfl
      have e2 : List.count '{' c!"}" = 0 := rfl
      have e3 : List.count '}' c!"{" = 0 := rfl
      have e4 : List.count '}' c!"}" = 1 := rfl
      omega
    | cons x a =>
      simp only [List.cons_append, List.nil_append, List.cons.injEq] at hab
      rcases List.append_eq_append_iff.1 hab.2 with ⟨y, rfl, hy⟩ | ⟨y, rfl, hy⟩
      · have : '{' ∉ b := by
          intro hm
          have : '{' ∈ c!"}" := by rw [hy]; exact List.mem_append_right _ hm
          revert this; decide
        rw [List.count_eq_zero.2 this]
        omega
      · subst hy
        have := hu a y rfl
        simp only [List.count_append]
        have e2 : List.count '{' c!"}" = 0 := rfl
        omega
  refine trans (free hd) ⟨c!"{" ++ u ++ c!"}", by simp, key⟩

end Closed

/-- A text without comments and parameters of wildcards. -/
def Bare (s : Str) : Prop := '#' ∉ s ∧ ¬ c!"//" <:+: s ∧ ¬ c!"/*" <:+: s ∧ ¬ c!")__" <:+: s

theorem Bare.right {u r : Str} (h : Bare (u ++ r)) : Bare r :=
  ⟨fun hm => h.1 (by simp [hm]), fun hm => h.2.1 (hm.trans (List.suffix_append u r).isInfix),
    fun hm => h.2.2.1 (hm.trans (List.suffix_append u r).isInfix), fun hm => h.2.2.2 (hm.trans (List.suffix_append u r).isInfix)⟩

theorem Closed.bare {s r : Str} (h : Closed s r) (hs : Bare s) : Bare r := by
  obtain ⟨u, rfl, _⟩ := h
  exact hs.right

theorem notes_bare {s t : Str} (h : Notes s t) (hs : Bare s) : s = t := by
  cases h with
  | none => rfl
  | line _ hm =>
    exfalso
    rcases hm with rfl | rfl
    · exact hs.1 (by simp)
    · exact hs.2.1 ⟨_, _, List.append_assoc _ _ _⟩
  | block => exact absurd ⟨_, _, List.append_assoc _ _ _⟩ hs.2.2.1

theorem gap_closed {s t : Str} (h : Gap s t) : Bare s → Closed s t := by
  induction h with
  | none => intro _; exact .refl _
  | @blank c s t hc _ ih =>
    intro hs
    refine Closed.trans (Closed.free (u := [c]) ?_) (ih (Bare.right (u := [c]) hs))
    simp only [List.mem_singleton]
    rintro rfl
    revert hc; decide
  | notes h _ ih =>
    intro hs
    have := notes_bare h hs
    subst this
    exact ih hs

theorem mark_closed {d s r : Str} (hd : '{' ∉ d) (h : Mark d s r) (hs : Bare s) : Closed s r := by
  rw [notes_bare h hs]
  exact .free hd

theorem numeral_free {n : Str} (h : Spec.numeral n = true) : '{' ∉ n := by
  simp only [Spec.numeral, Bool.and_eq_true, List.all_eq_true] at h
  intro hm
  have := h.1 _ hm
  revert this; decide

theorem method_closed {m : Option Method} {s r : Str} (h : MethodAt m s r) (hs : Bare s) : Closed s r := by
  cases h with
  | none => exact .refl _
  | @some m _ _ h => exact mark_closed (by cases m <;> decide) h hs

theorem bound_closed {b : Spec.Bound} {s r : Str} (h : BoundAt b s r) (hs : Bare s) : Closed s r := by
  cases h with
  | exact h1 h2 => exact mark_closed (numeral_free h1) h2 hs
  | between h1 h2 h3 h4 h5 =>
    have c1 := mark_closed (numeral_free h1) h3 hs
    have c2 := mark_closed (by decide) h4 (c1.bare hs)
    exact (c1.trans c2).trans (mark_closed (numeral_free h2) h5 ((c1.trans c2).bare hs))
  | upTo h1 h2 h3 =>
    have c1 := mark_closed (by decide) h2 hs
    exact c1.trans (mark_closed (numeral_free h1) h3 (c1.bare hs))
  | atLeast h1 h2 h3 =>
    have c1 := mark_closed (numeral_free h1) h2 hs
    exact c1.trans (mark_closed (by decide) h3 (c1.bare hs))

theorem bounds_closed {b : Option (Spec.Bound × Option Str)} {s r : Str} (h : BoundsAt b s r) (hs : Bare s) :
    Closed s r := by
  cases h with
  | none => exact .refl _
  | bound h1 h2 =>
    have c1 := bound_closed h1 hs
    exact c1.trans (mark_closed (by decide) h2 (c1.bare hs))
  | sep h1 h2 h3 h4 h5 =>
    have c1 := bound_closed h1 hs
    have c2 := c1.trans (mark_closed (by decide) h2 (c1.bare hs))
    have c3 := c2.trans (mark_closed (by
      intro hm
      simp only [Spec.separator, Bool.and_eq_true, List.all_eq_true] at h3
      have := h3.2 _ hm
      revert this; decide) h4 (c2.bare hs))
    exact c3.trans (mark_closed (by decide) h5 (c3.bare hs))

theorem weight_closed {w : Rat} {s r : Str} (h : WeightAt w s r) (hs : Bare s) : Closed s r := by
  cases h with
  | none => exact .refl _
  | @some n _ _ _ h1 h2 h3 =>
    have c1 := mark_closed (d := n.source) (by
      obtain ⟨w, d, sg⟩ := n
      intro hm
      cases d with
      | none =>
        simp only [Spec.Num.ok, Bool.and_eq_true, List.all_eq_true] at h1
        have := h1.1 _ hm
        revert this; decide
      | some d =>
        simp only [Spec.Num.ok, Bool.and_eq_true, List.all_eq_true, List.contains_iff_mem, List.mem_cons,
          List.not_mem_nil, or_false] at h1
        simp only [Spec.Num.source, List.mem_append] at hm
        rcases hm with ((hm | hm) | hm) | hm
        · rcases h1.2 with e | e | e <;> subst e <;> revert hm <;> decide
        · have := h1.1.1.1 _ hm
          revert this; decide
        · revert hm; decide
        · have := h1.1.1.2 _ hm
          revert this; decide) h2 hs
    exact c1.trans (mark_closed (by decide) h3 (c1.bare hs))

theorem text_closed {l : Place} {us : List Str} {s r : Str} (h : TextAt {} l us s r) (hs : Bare s) : Closed s r := by
  induction h with
  | one _ h2 _ h4 => exact mark_closed (fun hm => h2 _ hm (by cases l <;> decide)) h4 hs
  | more _ _ ih1 ih2 => exact (ih1 hs).trans (ih2 ((ih1 hs).bare hs))

theorem name_free {n : Str} (h : Spec.varName n = true) : '{' ∉ n := by
  simp only [Spec.varName, Bool.and_eq_true, List.all_eq_true] at h
  intro hm
  have := h.2 _ hm
  revert this; decide

theorem braced {d e s s1 t r : Str} (hd : '{' ∉ d) (he : e = d ++ c!"{") (h1 : Mark e s s1) (hs : Bare s)
    (h2 : Bare s1 → Closed s1 t) (h3 : Mark c!"}" t r) : Closed s r := by
  have := notes_bare h1 hs
  subst this
  rw [he, List.append_assoc]
  have hb : Bare s1 := hs.right
  have c := h2 hb
  have := notes_bare h3 (c.bare hb)
  subst this
  exact Closed.braces hd c

/-- Whatever is read with the grammar has its braces closed. -/
theorem readable_closed (al : Char → Bool) {g : Spec.Goal} {s r : Str} (h : Readable {} al g s r) :
    Bare s → Closed s r := by
  have step : ∀ {s t r : Str}, Bare s → Closed s t → (Bare t → Closed t r) → Closed s r :=
    fun hs h h' => h.trans (h' (h.bare hs))
  induction h with
  | notes h _ ih =>
    intro hs
    have := notes_bare h hs
    subst this
    exact ih hs
  | text h => exact text_closed h
  | pathText h => exact text_closed h
  | choice h1 h2 h3 h4 h5 _ h7 h8 ih =>
    intro hs
    refine braced (d := []) (by simp) rfl h1 hs (fun hb => ?_) h8
    exact step hb (gap_closed h2 hb) fun hb => step hb (method_closed h3 hb) fun hb =>
      step hb (bounds_closed h4 hb) fun hb => step hb (gap_closed h5 hb) fun hb => step hb (ih hb) (gap_closed h7)
  | wild _ h1 h2 _ _ h4 ih =>
    intro hs
    exact step hs (mark_closed (by decide) h1 hs) fun hb => step hb (method_closed h2 hb) fun hb =>
      step hb (ih hb) (mark_closed (by decide) h4)
  | wildP _ h1 h2 _ _ h4 h5 _ _ h8 h9 h10 _ _ _ _ ih =>
    intro hs
    have c := step hs (mark_closed (by decide) h1 hs) fun hb => step hb (method_closed h2 hb) fun hb =>
      step hb (ih hb) (gap_closed h4)
    have hb := c.bare hs
    have e := notes_bare h5 hb
    subst e
    have hb := hb.right
    have e := notes_bare h8 hb
    subst e
    have hb := hb.right
    have e := notes_bare h9 hb
    subst e
    have e := notes_bare h10 hb.right
    subst e
    exact absurd ⟨[], _, rfl⟩ hb.2.2.2
  | get _ h1 h2 hn h3 h4 h5 =>
    intro hs
    refine braced (d := c!"$") (by decide) rfl h1 hs (fun hb => ?_) h5
    exact step hb (gap_closed h2 hb) fun hb => step hb (mark_closed (name_free hn) h3 hb) (gap_closed h4)
  | pathGet h1 h2 hn h3 h4 h5 =>
    intro hs
    refine braced (d := c!"$") (by decide) rfl h1 hs (fun hb => ?_) h5
    exact step hb (gap_closed h2 hb) fun hb => step hb (mark_closed (name_free hn) h3 hb) (gap_closed h4)
  | getD _ h1 h2 hn h3 h4 h5 h6 _ h8 h9 ih =>
    intro hs
    refine braced (d := c!"$") (by decide) rfl h1 hs (fun hb => ?_) h9
    exact step hb (gap_closed h2 hb) fun hb => step hb (mark_closed (name_free hn) h3 hb) fun hb =>
      step hb (gap_closed h4 hb) fun hb => step hb (mark_closed (by decide) h5 hb) fun hb =>
      step hb (gap_closed h6 hb) fun hb => step hb (ih hb) (gap_closed h8)
  | pathGetE h1 h2 hn h3 h4 h5 h6 _ h8 h9 ih =>
    intro hs
    refine braced (d := c!"$") (by decide) rfl h1 hs (fun hb => ?_) h9
    exact step hb (gap_closed h2 hb) fun hb => step hb (mark_closed (name_free hn) h3 hb) fun hb =>
      step hb (gap_closed h4 hb) fun hb => step hb (mark_closed (by decide) h5 hb) fun hb =>
      step hb (gap_closed h6 hb) fun hb => step hb (ih hb) (gap_closed h8)
  | pathGetD h1 h2 hn h3 h4 h5 h6 _ h8 h9 ih =>
    intro hs
    refine braced (d := c!"$") (by decide) rfl h1 hs (fun hb => ?_) h9
    exact step hb (gap_closed h2 hb) fun hb => step hb (mark_closed (name_free hn) h3 hb) fun hb =>
      step hb (gap_closed h4 hb) fun hb => step hb (mark_closed (by decide) h5 hb) fun hb =>
      step hb (gap_closed h6 hb) fun hb => step hb (ih hb) (gap_closed h8)
  | set h1 h2 hn h3 h4 h5 h6 h7 h8 _ h10 h11 ih =>
    intro hs
    refine braced (d := c!"$") (by decide) rfl h1 hs (fun hb => ?_) h11
    exact step hb (gap_closed h2 hb) fun hb => step hb (mark_closed (name_free hn) h3 hb) fun hb =>
      step hb (gap_closed h4 hb) fun hb => step hb (mark_closed (by split <;> decide) h5 hb) fun hb =>
      step hb (mark_closed (by decide) h6 hb) fun hb => step hb (mark_closed (by split <;> decide) h7 hb) fun hb =>
      step hb (gap_closed h8 hb) fun hb => step hb (ih hb) (gap_closed h10)
  | wrap _ h1 h2 _ h4 h5 h6 _ h8 ih1 ih2 =>
    intro hs
    refine braced (d := c!"%") (by decide) rfl h1 hs (fun hb => ?_) h8
    exact step hb (gap_closed h2 hb) fun hb => step hb (ih1 hb) fun hb => step hb (gap_closed h4 hb) fun hb =>
      step hb (mark_closed (by decide) h5 hb) fun hb => step hb (gap_closed h6 hb) ih2
  | nil => intro _; exact .refl _
  | cons _ _ ih1 ih2 => exact fun hs => step hs (ih1 hs) ih2
  | option h1 h2 _ h4 ih =>
    intro hs
    exact step hs (gap_closed h1 hs) fun hb => step hb (weight_closed h2 hb) fun hb => step hb (ih hb) (gap_closed h4)
  | options _ h2 _ ih1 ih2 =>
    exact fun hs => step hs (ih1 hs) fun hb => step hb (mark_closed (by decide) h2 hb) ih2
  | @word s _ h =>
    intro _
    have := Closed.free (u := s) (r := []) (by
      intro hm
      have := List.all_eq_true.1 h _ hm
      revert this
      have e : Spec.alphanumeric al '{' = (Spec.letter '{' || Spec.digit '{') := if_pos (by decide)
      rw [e]; decide)
    rwa [List.append_nil] at this
  | template _ h2 ih => exact fun hs => step hs (ih hs) (gap_closed h2)

theorem expandTabs_append : ∀ (a t : Str) (col : Nat), ∃ col', expandTabs col (a ++ t) = expandTabs col a ++ expandTabs col' t
  | [], t, col => ⟨col, rfl⟩
  | c :: a, t, col => by
    have e : ∀ (x : Str), expandTabs col (c :: x) = if c = '\t' then List.replicate (8 - col % 8) ' ' ++ expandTabs 0 x
        else if c = '\n' ∨ c = '\x0d' then c :: expandTabs 0 x else c :: expandTabs (col + 1) x := fun x => by
      rw [expandTabs]
    rw [List.cons_append, e, e]
    split
    · obtain ⟨col', h⟩ := expandTabs_append a t 0
      exact ⟨col', by rw [h, List.append_assoc]⟩
    · split
      · obtain ⟨col', h⟩ := expandTabs_append a t 0
        exact ⟨col', by rw [h]; rfl⟩
      · obtain ⟨col', h⟩ := expandTabs_append a t (col + 1)
        exact ⟨col', by rw [h]; rfl⟩

theorem expandTabs_count {x : Char} (h1 : x ≠ ' ') (h2 : x ≠ '\t') : ∀ (s : Str) (col : Nat),
    (expandTabs col s).count x = s.count x
  | [], _ => rfl
  | c :: s, col => by
    unfold expandTabs
    split
    · rename_i h
      rw [List.count_append, expandTabs_count h1 h2 s 0, List.count_replicate, List.count_cons, h]
      simp [Ne.symm h1, Ne.symm h2]
    · split <;> rw [List.count_cons, List.count_cons, expandTabs_count h1 h2 s]

/-- A text without spaces and tabs is in a text if it is there when tabs are expanded. -/
theorem expandTabs_infix {w : Str} (h1 : ' ' ∉ w) (h2 : '\t' ∉ w) {s : Str} {col : Nat} (h : w <:+: expandTabs col s) :
    w <:+: s := by
  have e : ∀ (c : Char) (x : Str) (col : Nat), expandTabs col (c :: x) = if c = '\t' then
      List.replicate (8 - col % 8) ' ' ++ expandTabs 0 x
      else if c = '\n' ∨ c = '\x0d' then c :: expandTabs 0 x else c :: expandTabs (col + 1) x := fun c x col => by
    rw [expandTabs]
  have hpre : ∀ (w s : Str) (col : Nat), ' ' ∉ w → w <+: expandTabs col s → w <+: s := by
    intro w
    induction w with
    | nil => intro s col _ _; exact List.nil_prefix
    | cons x w ih =>
      intro s col hx h
      simp only [List.mem_cons, not_or] at hx
      cases s with
      | nil => exact h
      | cons c s =>
        rw [e] at h
        split at h
        · obtain ⟨k, hk⟩ : ∃ k, 8 - col % 8 = k + 1 := ⟨7 - col % 8, by omega⟩
          rw [hk, List.replicate_succ, List.cons_append, List.cons_prefix_cons] at h
          exact absurd h.1.symm hx.1
        · split at h
          · rw [List.cons_prefix_cons] at h ⊢
            exact ⟨h.1, ih _ _ hx.2 h.2⟩
          · rw [List.cons_prefix_cons] at h ⊢
            exact ⟨h.1, ih _ _ hx.2 h.2⟩
  cases w with
  | nil => exact List.nil_infix
  | cons x w =>
    induction s generalizing col with
    | nil => exact h
    | cons c s ih =>
      rw [e] at h
      split at h
      · have key : ∀ n, x :: w <:+: List.replicate n ' ' ++ expandTabs 0 s → x :: w <:+: expandTabs 0 s := by
          intro n
          induction n with
          | zero => exact id
          | succ n ihn =>
            intro h
            rw [List.replicate_succ, List.cons_append, List.infix_cons_iff] at h
            rcases h with h | h
            · rw [List.cons_prefix_cons] at h
              exact absurd (by simp [h.1]) h1
            · exact ihn h
        exact List.infix_cons (ih (key _ h))
      · have hcase : ∀ col', x :: w <:+: c :: expandTabs col' s → x :: w <:+: c :: s := by
          intro col' h
          rw [List.infix_cons_iff] at h ⊢
          rcases h with h | h
          · left
            rw [List.cons_prefix_cons] at h ⊢
            exact ⟨h.1, hpre _ _ _ (fun hm => h1 (List.mem_cons_of_mem _ hm)) h.2⟩
          · exact .inr (ih h)
        split at h
        · exact hcase _ h
        · exact hcase _ h

/-- **C76.**  A template with a brace that is never closed is rejected: if a text has no comments and no parameters of
wildcards (no `#`, `//`, `/*` and `)__`), and from some place on there are more `{` than `}`, it is not a template. -/
theorem unclosed_rejected (al : Char → Bool) (s : Str)
    (h : '#' ∉ s ∧ ¬ c!"//" <:+: s ∧ ¬ c!"/*" <:+: s ∧ ¬ c!")__" <:+: s) (a t : Str) (hs : s = a ++ t)
    (hc : t.count '}' < t.count '{') : ∀ c, parse (.default al) s ≠ .ok c := by
  intro c hp
  rw [← ParserCfg.of_default] at hp
  have cnt := fun (x : Char) (h1 : x ≠ ' ') (h2 : x ≠ '\t') (s : Str) (col : Nat) => expandTabs_count h1 h2 s col
  have mem : ∀ x : Char, x ≠ ' ' → x ≠ '\t' → x ∉ s → x ∉ expandTabs 0 s := by
    intro x h1 h2 h3
    rw [← List.count_eq_zero] at h3 ⊢
    rw [cnt x h1 h2, h3]
  obtain ⟨u, hu, hb⟩ := readable_closed al (parse_readable hp) ⟨mem _ (by decide) (by decide) h.1,
    fun hi => h.2.1 (expandTabs_infix (by decide) (by decide) hi), fun hi => h.2.2.1 (expandTabs_infix (by decide) (by decide) hi),
    fun hi => h.2.2.2 (expandTabs_infix (by decide) (by decide) hi)⟩
  rw [List.append_nil] at hu
  obtain ⟨col', e⟩ := expandTabs_append a t 0
  have := hb _ _ (by rw [← hu, hs, e])
  rw [cnt _ (by decide) (by decide), cnt _ (by decide) (by decide)] at this
  omega

/-- Such texts exist. -/
example (al : Char → Bool) : ∀ c, parse (.default al) c!"a (b:1.2) __x/y__ {b|{c|d} e" ≠ .ok c :=
  unclosed_rejected al _ (by decide) c!"a (b:1.2) __x/y__ " c!"{b|{c|d} e" rfl (by decide)

/-- A comment may have a brace. -/
example : parse (.default fun _ => false) c!"a # {" = .ok (.lit c!"a " none) := by decide +kernel

/-- An opening brace may be part of the name of a parameter. -/
example : ∃ c, parse (.default fun _ => false) c!"__a({=b)__" = .ok c := ⟨_, by
  show _ = Except.ok (.wild (.inl c!"a") none [(c!"{", .lit c!"b" none)])
  decide +kernel⟩

/-- Empty parentheses are not in the grammar. -/
example : parse (.default fun _ => false) c!"__a()__" = .error .parse := by decide +kernel

/-- A text that is accepted although it is not written unambiguously: it can be read with the grammar. -/
example : Readable {} (fun _ => false) (.template (.seq [.variant [(.lit c!"a  \n b" none, 1), (.lit c!"c " none, 3 / 2)] 2 2 c!"," none,
    .lit c!" } ~" none] [] none)) c!"{2$$ a # x\n b|1.5::c } } ~" [] :=
  accepted_in_grammar {} _ c!"{2$$ a # x\n b|1.5::c } } ~" _ (by decide +kernel)

end Verif.Props
