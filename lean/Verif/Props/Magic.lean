import Verif.Proofs.MagicText
/-!
# Properties of the magic prompt generator

C43 the blocklist, C44 cleaning up, C45 switching models.
-/

namespace Verif.Props
open Spec
variable {W : Type}

/-! ## C43 Magic prompt blocklist retries -/

/-- **C43** With a blocklist: the model is asked once for all prompts, then in rounds for the originals
of exactly the prompts that are blocked at that time, at most `max_attempts` rounds.  If it stops
earlier, no returned prompt is blocked. -/
theorem magic_retries (blocked : Str → Bool) (batch : List Str → M W (List Str)) (maxAttempts : Int)
    (hb : ∀ ps w out w', batch ps w = .ok out w' → out.length = ps.length)
    (prompts out : List Str) (w w' : W)
    (h : magicGenerate (some blocked) batch maxAttempts prompts w = .ok out w') :
    ∃ first w1 n, batch prompts w = .ok first w1 ∧ n ≤ maxAttempts.toNat ∧
      Rounds blocked batch prompts n first w1 out w' ∧
      (n < maxAttempts.toNat → ∀ p ∈ out, blocked p = false) := by
  unfold magicGenerate at h
  obtain ⟨first, w1, h1, h2⟩ := M.bind_ok.1 h
  obtain ⟨n, h3, h4, h5⟩ := regenerate_rounds hb (hb _ _ _ _ h1) h2
  exact ⟨first, w1, n, h1, h3, h4, h5⟩

/-- **C43** The number and the order of the prompts stay: the `i`-th result is an answer of the model
for the `i`-th prompt; a first answer that is not blocked is returned unchanged. -/
theorem magic_keeps (blocked : Str → Bool) (batch : List Str → M W (List Str)) (maxAttempts : Int)
    (hb : ∀ ps w out w', batch ps w = .ok out w' → out.length = ps.length)
    (prompts out : List Str) (w w' : W)
    (h : magicGenerate (some blocked) batch maxAttempts prompts w = .ok out w') :
    out.length = prompts.length ∧
    (∃ first w1, batch prompts w = .ok first w1 ∧
      ∀ (i : Nat) p, first[i]? = some p → blocked p = false → out[i]? = some p) ∧
    ∀ (i : Nat) p o, prompts[i]? = some p → out[i]? = some o →
      ∃ asked answers w1 w2, ∃ j : Nat, batch asked w1 = .ok answers w2 ∧ asked[j]? = some p ∧
        answers[j]? = some o := by
  obtain ⟨first, w1, n, h1, -, h2, -⟩ := magic_retries blocked batch maxAttempts hb prompts out w w' h
  obtain ⟨h3, h4⟩ := Rounds.keeps h2
  refine ⟨h3.trans (hb _ _ _ _ h1), ⟨first, w1, h1, h4⟩, ?_⟩
  refine Rounds.from h2 _ ?_ ?_
  · intro asked answers w w' j a b h5 h6 h7
    exact ⟨asked, answers, w, w', j, h5, h6, h7⟩
  · intro i a b h5 h6
    exact ⟨prompts, first, w, w1, i, h1, h5, h6⟩

/-- **C43** It succeeds if the model always answers; without a blocklist the answers are returned as
they are. -/
theorem magic_succeeds (blocked : Str → Bool) (batch : List Str → M W (List Str)) (maxAttempts : Int)
    (hb : ∀ ps w, ∃ out w', batch ps w = .ok out w' ∧ out.length = ps.length)
    (prompts : List Str) (w : W) :
    (∃ out w', magicGenerate (some blocked) batch maxAttempts prompts w = .ok out w') ∧
    (∀ out w', batch prompts w = .ok out w' → magicGenerate none batch maxAttempts prompts w = .ok out w') := by
  constructor
  · obtain ⟨first, w1, h1, h2⟩ := hb prompts w
    obtain ⟨out, w', h3⟩ := regenerate_succeeds (blocked := blocked) (batch := batch) (origs := prompts)
      (fun ps w => let ⟨o, w', h, _⟩ := hb ps w; ⟨o, w', h⟩) (k := maxAttempts.toNat) (w := w1) h2
    refine ⟨out, w', ?_⟩
    unfold magicGenerate
    rw [M.bind_of_ok h1]
    exact h3
  · intro out w' h
    unfold magicGenerate
    rw [M.bind_of_ok h]
    rfl

/-- **C43** The `i`-th answer is the clean-up of what the language model said for the `i`-th prompt, so a
language model with one text per prompt gives what the theorems above ask of `batch`. -/
theorem magic_batch (model : List Str → M W (List Str)) (clean : Str → Str → Str) (ps out : List Str)
    (w w' : W) (h : magicBatch model clean ps w = .ok out w')
    (hm : ∀ ps w out w', model ps w = .ok out w' → out.length = ps.length) :
    out.length = ps.length ∧ ∃ texts, model ps w = .ok texts w' ∧
      ∀ (i : Nat) p t, ps[i]? = some p → texts[i]? = some t → out[i]? = some (clean p t) := by
  unfold magicBatch at h
  obtain ⟨outs, w1, h1, h2⟩ := M.bind_ok.1 h
  obtain ⟨rfl, rfl⟩ := M.pure_ok_iff.1 h2
  have := hm _ _ _ _ h1
  refine ⟨by simp [this], outs, h1, ?_⟩
  intro i p t hp ht
  simp [List.getElem?_zipWith, hp, ht]

namespace MagicDemo

/-- A model that says the prompt and a number that goes up with every text. -/
def model (ps : List Str) : M Nat (List Str) := fun w =>
  .ok ((List.range ps.length).map fun i => (ps.getD i []) ++ [Char.ofNat (48 + w + i)]) (w + ps.length)

/-- Numbers 1 and 3 are blocked. -/
def blocked (s : Str) : Bool := s.contains '1' || s.contains '3'

end MagicDemo

/-- Non-vacuity: `b1` is blocked, its replacement `b3` again, then `b4` is accepted; `a0` and `c2` stay. -/
example : magicGenerate (some MagicDemo.blocked) MagicDemo.model 20 [c!"a", c!"b", c!"c"] 0 =
    .ok [c!"a0", c!"b4", c!"c2"] 5 := by decide +kernel

/-- After the last attempt the result is not checked again. -/
example : magicGenerate (some MagicDemo.blocked) MagicDemo.model 1 [c!"a", c!"b", c!"c"] 0 =
    .ok [c!"a0", c!"b3", c!"c2"] 4 := by decide +kernel

example (ps : List Str) (w : Nat) :
    ∃ out w', MagicDemo.model ps w = .ok out w' ∧ out.length = ps.length :=
  ⟨_, _, rfl, by simp⟩

/-! ## C44 Magic prompt keeps the original prompt -/

/-- **C44** If the output of the model extends the original prompt, the result is the original prompt
verbatim, a space, and a text without braces; otherwise the whole result has no braces. -/
theorem magic_keeps_original (isWord : Char → Bool) (weight : Nat → Str)
    (hw : ∀ n, '{' ∉ weight n ∧ '}' ∉ weight n) (orig text : Str) :
    (∀ added, text = orig ++ added →
      ∃ tail, cleanMagic isWord weight orig text = orig ++ c!" " ++ tail ∧ '{' ∉ tail ∧ '}' ∉ tail) ∧
    ((¬ ∃ added, text = orig ++ added) →
      '{' ∉ cleanMagic isWord weight orig text ∧ '}' ∉ cleanMagic isWord weight orig text) := by
  have hclean : ∀ s, '{' ∉ cleanAdded isWord weight s ∧ '}' ∉ cleanAdded isWord weight s := by
    intro s
    have := cleanAdded_all (P := fun c => c ≠ '{' ∧ c ≠ '}') (isWord := isWord) (weight := weight) (s := s)
      (by simp) (fun n c hc => ⟨fun e => (hw n).1 (e ▸ hc), fun e => (hw n).2 (e ▸ hc)⟩)
      (by
        intro c hc
        obtain ⟨d, -, rfl⟩ := List.mem_map.1 hc
        unfold deBrace
        split
        · exact ⟨by decide, by decide⟩
        · split
          · exact ⟨by decide, by decide⟩
          · exact ⟨by assumption, by assumption⟩)
    exact ⟨fun h => (this _ h).1 rfl, fun h => (this _ h).2 rfl⟩
  unfold cleanMagic
  constructor
  · rintro added rfl
    have hs : startsWith (orig ++ added) orig = true := by
      unfold startsWith
      rw [List.isPrefixOf_iff_prefix]
      exact List.prefix_append _ _
    rw [if_pos hs]
    exact ⟨_, rfl, hclean _⟩
  · intro hno
    have hs : ¬ startsWith text orig = true := by
      unfold startsWith
      rw [List.isPrefixOf_iff_prefix]
      rintro ⟨t, rfl⟩
      exact hno ⟨t, rfl⟩
    rw [if_neg hs]
    exact hclean _

/-- **C44** A brace in the added part has the effect of the parenthesis. -/
theorem magic_braces_are_parentheses (isWord : Char → Bool) (weight : Nat → Str) (orig a b : Str) :
    cleanMagic isWord weight orig (orig ++ a ++ c!"{" ++ b) =
        cleanMagic isWord weight orig (orig ++ a ++ c!"(" ++ b) ∧
      cleanMagic isWord weight orig (orig ++ a ++ c!"}" ++ b) =
        cleanMagic isWord weight orig (orig ++ a ++ c!")" ++ b) := by
  have hs : ∀ t, startsWith (orig ++ t) orig = true := by
    intro t
    unfold startsWith
    rw [List.isPrefixOf_iff_prefix]
    exact List.prefix_append _ _
  have h1 : ∀ x y : Char, deBrace x = deBrace y →
      cleanAdded isWord weight (a ++ [x] ++ b) = cleanAdded isWord weight (a ++ [y] ++ b) := by
    intro x y hxy
    unfold cleanAdded
    simp only [List.map_append, List.map_cons, List.map_nil, hxy]
  have h2 : ∀ x y : Char, deBrace x = deBrace y →
      cleanMagic isWord weight orig (orig ++ a ++ [x] ++ b) =
        cleanMagic isWord weight orig (orig ++ a ++ [y] ++ b) := by
    intro x y hxy
    unfold cleanMagic
    simp only [List.append_assoc, hs, if_true, List.drop_left]
    have := h1 x y hxy
    simp only [List.append_assoc] at this
    rw [this]
  exact ⟨h2 _ _ (by decide), h2 _ _ (by decide)⟩

namespace MagicDemo

/-- ASCII letters. -/
def isWord (c : Char) : Bool := c.isAlphanum || c == '_'

/-- `1.1`, `1.21`, … -/
def weight (n : Nat) : Str := if n = 1 then c!"1.1" else if n = 2 then c!"1.21" else c!"9"

end MagicDemo

/-- Non-vacuity: braces, separators, hyphens and exclamation marks. -/
example : cleanMagic MagicDemo.isWord MagicDemo.weight c!"{cat" c!"{cat, big - eyed { fur },, ;art!! x" =
    c!"{cat big-eyed (fur),,, (art:1.21) x" := by decide +kernel
example : cleanMagic MagicDemo.isWord MagicDemo.weight c!"{cat" c!"a {dog} ! " = c!"a (dog" := by
  decide +kernel
example (n : Nat) : '{' ∉ MagicDemo.weight n ∧ '}' ∉ MagicDemo.weight n := by
  unfold MagicDemo.weight
  split
  · decide
  · split <;> decide

/-- The same phrase with one and with two exclamation marks: the first replacement spoils the second. -/
example : cleanMagic MagicDemo.isWord MagicDemo.weight c!"a" c!"a cat! dog, cat!! end" =
    c!"a (cat:1.1) dog, (cat:1.1)! end" := by decide +kernel

/-- **C44** Cleaning up only changes white space, underscores and the separators `,` `;` `.`: with all of
these left out, the added part (from its first to its last word character, braces as parentheses) is
what it was.  `isWord` is the class `\w`. -/
theorem magic_changes_separators_only (isWord : Char → Bool) (weight : Nat → Str)
    (hsp : ∀ c, isSpace c = true → isWord c = false) (hbr : ∀ c ∈ c!"(){}!", isWord c = false)
    (orig pre core post : Str) (hne : core ≠ [])
    (hpre : ∀ c ∈ pre, isWord c = false) (hpost : ∀ c ∈ post, isWord c = false)
    (hfirst : ∀ c, core.head? = some c → isWord c = true)
    (hlast : ∀ c, core.getLast? = some c → isWord c = true) (hbang : '!' ∉ core) :
    let kept : Str → Str := fun s => s.filter fun c => !isSpace c && !decide (c ∈ c!"_,;.")
    ∃ tail, cleanMagic isWord weight orig (orig ++ (pre ++ core ++ post)) = orig ++ c!" " ++ tail ∧
      kept tail = kept (core.map fun c => if c = '{' then '(' else if c = '}' then ')' else c) := by
  intro kept
  have hd : ∀ c, isWord c = true → deBrace c = c := by
    intro c hc
    unfold deBrace
    split
    · rename_i e
      rw [e, hbr '{' (by decide)] at hc
      cases hc
    · split
      · rename_i e
        rw [e, hbr '}' (by decide)] at hc
        cases hc
      · rfl
  have hnw : ∀ c, isWord c = false → isWord (deBrace c) = false := by
    intro c hc
    unfold deBrace
    split
    · exact hbr '(' (by decide)
    · split
      · exact hbr ')' (by decide)
      · exact hc
  have hs : startsWith (orig ++ (pre ++ core ++ post)) orig = true := by
    unfold startsWith
    rw [List.isPrefixOf_iff_prefix]
    exact List.prefix_append _ _
  have hstrip : stripP (fun c => !isWord c) (strip ((pre ++ core ++ post).map deBrace)) =
      core.map deBrace := by
    rw [List.map_append, List.map_append]
    refine strip_core (by simpa using hne) hsp ?_ ?_ ?_ ?_
    · intro c hc
      rw [List.head?_map] at hc
      obtain ⟨d, hd1, rfl⟩ := Option.map_eq_some_iff.1 hc
      rw [hd d (hfirst d hd1)]
      exact hfirst d hd1
    · intro c hc
      rw [List.getLast?_map] at hc
      obtain ⟨d, hd1, rfl⟩ := Option.map_eq_some_iff.1 hc
      rw [hd d (hlast d hd1)]
      exact hlast d hd1
    · intro c hc
      obtain ⟨d, hd1, rfl⟩ := List.mem_map.1 hc
      exact hnw d (hpre d hd1)
    · intro c hc
      obtain ⟨d, hd1, rfl⟩ := List.mem_map.1 hc
      exact hnw d (hpost d hd1)
  have hK : Kept fun c => !isSpace c && !decide (c ∈ c!"_,;.") := by
    refine ⟨fun c hc => by simp [hc], fun c hc => ?_, by decide⟩
    simp only [isListSep, Bool.or_eq_true, beq_iff_eq] at hc
    rcases hc with (rfl | rfl) | rfl <;> decide
  have hno : '!' ∉ tidied isWord (core.map deBrace) := by
    intro hm
    have h1 : '!' ∈ (tidied isWord (core.map deBrace)).filter
        (fun c => !isSpace c && !decide (c ∈ c!"_,;.")) :=
      List.mem_filter.2 ⟨hm, by decide⟩
    rw [tidied_filter hK] at h1
    obtain ⟨d, hd1, hd2⟩ := List.mem_map.1 (List.mem_filter.1 h1).1
    unfold deBrace at hd2
    split at hd2
    · exact absurd hd2 (by decide)
    · split at hd2
      · exact absurd hd2 (by decide)
      · subst hd2
        exact hbang hd1
  refine ⟨tidied isWord (core.map deBrace), ?_, tidied_filter hK _⟩
  unfold cleanMagic
  rw [if_pos hs, List.drop_left, cleanAdded_eq]
  dsimp only
  rw [hstrip, findBangs_none hno]
  rfl

/-- **C44** The added part has no white space after an opening or before a closing parenthesis, if it
has no exclamation marks. -/
theorem magic_parentheses (isWord : Char → Bool) (weight : Nat → Str) (hcl : isWord ')' = false)
    (orig added : Str) (hbang : '!' ∉ added) :
    ∃ tail, cleanMagic isWord weight orig (orig ++ added) = orig ++ c!" " ++ tail ∧
      ∀ sp, isSpace sp = true → ¬ Occurs ['(', sp] tail ∧ ¬ Occurs [sp, ')'] tail := by
  have hs : startsWith (orig ++ added) orig = true := by
    unfold startsWith
    rw [List.isPrefixOf_iff_prefix]
    exact List.prefix_append _ _
  generalize hcore : stripP (fun c => !isWord c) (strip (added.map deBrace)) = core
  have hb : '!' ∉ core := by
    intro hm
    have := all_stripP (P := fun c => c ≠ '!') (p := fun c => !isWord c)
      (s := strip (added.map deBrace)) (all_stripP (p := isSpace) (s := added.map deBrace) (by
        intro c hc
        obtain ⟨d, hd1, rfl⟩ := List.mem_map.1 hc
        unfold deBrace
        split
        · decide
        · split
          · decide
          · rintro rfl; exact hbang hd1))
    rw [hcore] at this
    exact this _ hm rfl
  have hno : '!' ∉ tidied isWord core := by
    have hK : Kept fun c => c == '!' := by
      refine ⟨fun c hc => ?_, fun c hc => ?_, by decide⟩
      · by_cases h : c = '!'
        · subst h; exact absurd hc (by decide)
        · simp [h]
      · by_cases h : c = '!'
        · subst h; exact absurd hc (by decide)
        · simp [h]
    intro hm
    have h1 : '!' ∈ (tidied isWord core).filter (fun c => c == '!') := List.mem_filter.2 ⟨hm, by decide⟩
    rw [tidied_filter hK] at h1
    exact hb (List.mem_filter.1 h1).1
  refine ⟨tidied isWord core, ?_, fun sp hsp => ?_⟩
  · unfold cleanMagic
    rw [if_pos hs, List.drop_left, cleanAdded_eq]
    dsimp only
    rw [hcore, findBangs_none hno]
    rfl
  · obtain ⟨h1, h2⟩ := tidied_chains (isWord := isWord) (s := core) hcl
    constructor
    · rintro ⟨a, b, hab⟩
      rw [hab, List.append_assoc] at h1
      have := (List.isChain_append.1 h1).2.1
      exact (List.isChain_cons_cons.1 this).1 ⟨rfl, hsp⟩
    · rintro ⟨a, b, hab⟩
      rw [hab, List.append_assoc] at h2
      have := (List.isChain_append.1 h2).2.1
      exact (List.isChain_cons_cons.1 this).1 ⟨hsp, rfl⟩

/-- **C44** A phrase followed by `n` exclamation marks becomes `(phrase:weight)`, with the weight for `n`
marks.  Here the phrase is at the beginning of the added part, which has no other marks and none of
the characters that the other rules look at. -/
theorem magic_exclamation_marks (isWord : Char → Bool) (weight : Nat → Str)
    (hsp : ∀ c, isSpace c = true → isWord c = false) (hbr : ∀ c ∈ c!"(){}!", isWord c = false)
    (orig phrase rest : Str) (n : Nat) (hn : n ≠ 0)
    (hphrase : ∃ c, phrase.head? = some c ∧ isWord c = true)
    (hrest : ∃ c, rest.getLast? = some c ∧ isWord c = true)
    (hp : ∀ c ∈ phrase, (isWord c = true ∨ isSpace c = true) ∧ c ≠ '_')
    (hr : ∀ c ∈ rest, (isWord c = true ∨ isSpace c = true) ∧ c ≠ '_')
    (hw : ∀ c ∈ c!"-,;.", isWord c = false) :
    cleanMagic isWord weight orig (orig ++ (c!" " ++ phrase ++ List.replicate n '!' ++ rest)) =
      orig ++ c!" " ++ (c!"(" ++ phrase ++ c!":" ++ weight n ++ c!")" ++ rest) := by
  have hs : startsWith (orig ++ (c!" " ++ phrase ++ List.replicate n '!' ++ rest)) orig = true := by
    unfold startsWith
    rw [List.isPrefixOf_iff_prefix]
    exact List.prefix_append _ _
  have hns : ∀ c ∈ c!"(){}!-,;.", isSpace c = false := by decide
  have hnw : ∀ c ∈ c!"(){}!-,;.", isWord c = false := by
    intro c hc
    have : c ∈ c!"(){}!" ∨ c ∈ c!"-,;." := by simp at hc ⊢; tauto
    exact this.elim (hbr c) (hw c)
  have hout : ∀ c, (isWord c = true ∨ isSpace c = true) → c ∉ c!"(){}!-,;." := by
    intro c h hc
    rw [hns c hc, hnw c hc] at h
    simp at h
  have hsafe : ∀ c ∈ phrase ++ List.replicate n '!' ++ rest, c = '!' ∨
      ((isWord c = true ∨ isSpace c = true) ∧ c ≠ '_') := by
    intro c hc
    simp only [List.mem_append] at hc
    rcases hc with (hc | hc) | hc
    · exact .inr (hp c hc)
    · exact .inl (List.eq_of_mem_replicate hc)
    · exact .inr (hr c hc)
  have hbrace : ∀ s : Str, (∀ c ∈ s, c ≠ '{' ∧ c ≠ '}') → s.map deBrace = s := by
    intro s h
    refine (List.map_congr_left (fun c hc => ?_)).trans (List.map_id s)
    unfold deBrace
    rw [if_neg (h c hc).1, if_neg (h c hc).2]
    rfl
  have hdb : (c!" " ++ phrase ++ List.replicate n '!' ++ rest).map deBrace =
      c!" " ++ (phrase ++ List.replicate n '!' ++ rest) ++ [] := by
    rw [hbrace]
    · simp
    · intro c hc
      have : c = ' ' ∨ c ∈ phrase ++ List.replicate n '!' ++ rest := by
        simp only [List.mem_append, List.mem_singleton] at hc ⊢; tauto
      rcases this with rfl | hc
      · decide
      · rcases hsafe c hc with rfl | ⟨h, -⟩
        · decide
        · have := hout c h
          simp at this
          tauto
  have hne : phrase ++ List.replicate n '!' ++ rest ≠ [] := by
    obtain ⟨c, hc, -⟩ := hphrase
    cases phrase with
    | nil => cases hc
    | cons a s => simp
  have hstrip : stripP (fun c => !isWord c)
      (strip ((c!" " ++ phrase ++ List.replicate n '!' ++ rest).map deBrace)) =
      phrase ++ List.replicate n '!' ++ rest := by
    rw [hdb]
    refine strip_core hne hsp ?_ ?_ ?_ (by simp)
    · intro c hc
      obtain ⟨d, hd1, hd2⟩ := hphrase
      cases phrase with
      | nil => cases hd1
      | cons a s =>
        cases hd1
        simp at hc
        subst hc
        exact hd2
    · intro c hc
      obtain ⟨d, hd1, hd2⟩ := hrest
      rw [List.getLast?_append, hd1] at hc
      cases hc
      exact hd2
    · intro c hc
      simp only [List.mem_singleton] at hc
      subst hc
      exact hsp ' ' (by decide)
  have htidy : tidied isWord (phrase ++ List.replicate n '!' ++ rest) =
      phrase ++ List.replicate n '!' ++ rest := by
    refine tidied_id fun c hc => ?_
    rcases hsafe c hc with rfl | ⟨h, h'⟩
    · decide
    · have := hout c h
      simp at this ⊢
      tauto
  unfold cleanMagic
  rw [if_pos hs, List.drop_left, cleanAdded_eq]
  dsimp only
  rw [hstrip, htidy]
  have := bangs_once (isWord := isWord) (phrase := phrase) (rest := rest) weight hn
    (hbr '!' (by decide)) hphrase (fun c hc => by rcases (hp c hc).1 with h | h <;> simp [h]) (by
      intro hm
      have := hout '!' (hr _ hm).1
      exact absurd (by decide) this)
  dsimp only at this
  rw [this]

/-- Non-vacuity of the three theorems above. -/
example :
    let isWord := fun c : Char => c.isAlphanum || c == '_'
    cleanMagic isWord (fun n => [Char.ofNat (48 + n)]) c!"a cat"
        c!"a cat , {  soft  } - fur ;  big   _ eyes, , art - work .." =
      c!"a cat soft) - fur, big eyes, art-work" ∧
    cleanMagic isWord (fun n => [Char.ofNat (48 + n)]) c!"a cat" c!"a cat red hat!!! on top" =
      c!"a cat (red hat:3) on top" := by decide +kernel

/-! ## C45 Magic prompt model switching -/

/-- **C45** After any history, including failed loads: every instance has a pipeline that was loaded for
the model it was last asked (without exception) to use, or none; a model is loaded exactly when it is
requested, can be loaded and was not the model of the request before. -/
theorem magic_model (s : MagicState) (names : List Str) (reqs : List (Str × Bool))
    (h : MagicHistory s names reqs) :
    s.instances.length = names.length ∧
    (∀ (i : Nat) p m, s.instances[i]? = some p → names[i]? = some m →
      p = none ∨ ∃ k, p = some (m, k) ∧ k < s.loads) ∧
    s.loads = loadsNeeded none reqs :=
  ⟨(magic_inv h).length, (magic_inv h).inst, (magic_inv h).loads⟩

theorem runStart_append (cur : Option (Str × Bool)) (rs : List (Str × Bool)) (r : Str × Bool) :
    runStart cur (rs ++ [r]) =
      if (runStart cur rs).map (·.1) = some r.1 then runStart cur rs else some r := by
  induction rs generalizing cur with
  | nil => rfl
  | cons x rs ih => simp only [List.cons_append, runStart]; exact ih _

theorem runStart_name (rs : List (Str × Bool)) :
    (runStart none rs).map (·.1) = rs.getLast?.map (·.1) := by
  induction rs using List.reverseRecOn with
  | nil => rfl
  | append_singleton rs r ih =>
    rw [runStart_append, List.getLast?_concat]
    split
    · rename_i h; rw [h]; rfl
    · rfl

/-- What the requests say about the class and its instances. -/
structure MagicExact (s : MagicState) (a : Asked) : Prop where
  name : s.name = a.reqs.getLast?.map (·.1)
  loads : s.loads = loadsNeeded none a.reqs
  pipe : s.pipeline = pipelineFor a.reqs
  inst : s.instances = a.served.map pipelineFor

theorem setModel_exact {s : MagicState} {a : Asked} (h : MagicExact s a) (m : Str) (ok : Bool) :
    MagicExact (s.setModel m ok).1 ⟨a.reqs ++ [(m, ok)], a.served⟩ ∧
    (s.setModel m ok).2 = if Refused a.reqs m ok then none else some (pipelineFor (a.reqs ++ [(m, ok)])) := by
  obtain ⟨h1, h2, h3, h4⟩ := h
  have hl := loadsNeeded_append none a.reqs m ok
  have hor : ((a.reqs.getLast?).map (·.1) <|> none) = s.name := by rw [h1]; cases a.reqs.getLast? <;> rfl
  rw [hor, ← h2] at hl
  have hr := runStart_append none a.reqs (m, ok)
  rw [runStart_name, ← h1] at hr
  unfold MagicState.setModel
  by_cases hn : s.name = some m
  · simp only [hn, ne_eq, not_true, if_false, false_and, if_true] at hl hr ⊢
    have hp : pipelineFor (a.reqs ++ [(m, ok)]) = pipelineFor a.reqs := by
      unfold pipelineFor; rw [hr, hl, h2]; rfl
    refine ⟨⟨by simp [hn], by simpa using hl.symm, by rw [hp]; exact h3, h4⟩, ?_⟩
    rw [if_neg (by unfold Refused; rw [← h1, hn]; simp), hp, h3]
  · rw [if_neg hn] at hr
    cases ok with
    | true =>
      rw [if_pos ⟨hn, rfl⟩] at hl
      have hp : pipelineFor (a.reqs ++ [(m, true)]) = some (m, s.loads) := by
        unfold pipelineFor; rw [hr, hl]; rfl
      rw [if_pos hn]
      simp only [if_true]
      refine ⟨⟨by simp, by simp [hl], by rw [hp], h4⟩, ?_⟩
      rw [if_neg (by unfold Refused; simp), hp]
    | false =>
      rw [if_neg (by simp)] at hl
      have hp : pipelineFor (a.reqs ++ [(m, false)]) = none := by
        unfold pipelineFor; rw [hr]
      rw [if_pos hn]
      simp only [Bool.false_eq_true, if_false]
      refine ⟨⟨by simp, by simp [hl], by rw [hp], h4⟩, ?_⟩
      rw [if_pos ⟨by rw [← h1]; exact hn, rfl⟩]

theorem step_exact {s : MagicState} {a : Asked} (h : MagicExact s a) (op : MagicOp) :
    MagicExact (s.step op).1 (a.step op) ∧ ((s.step op).2 = true ↔ a.raises op) := by
  have hlen : s.instances.length = a.served.length := by rw [h.inst]; simp
  cases op with
  | new m ok =>
    obtain ⟨h1, h2⟩ := setModel_exact h m ok
    obtain ⟨g1, g2, g3, g4⟩ := h1
    simp only [MagicState.step, Asked.step, Asked.raises]
    generalize s.setModel m ok = q at *
    obtain ⟨s', r⟩ := q
    dsimp only at g1 g2 g3 g4 h2
    subst h2
    by_cases hr : Refused a.reqs m ok
    · simp only [hr, if_true]; exact ⟨⟨g1, g2, g3, g4⟩, by simp⟩
    · simp only [hr, if_false]; exact ⟨⟨g1, g2, g3, by simp [g4]⟩, by simp⟩
  | set i m ok =>
    obtain ⟨h1, h2⟩ := setModel_exact h m ok
    obtain ⟨g1, g2, g3, g4⟩ := h1
    simp only [MagicState.step, Asked.step, Asked.raises, hlen]
    by_cases hi : i < a.served.length
    · simp only [hi, if_true, true_imp_iff]
      generalize s.setModel m ok = q at *
      obtain ⟨s', r⟩ := q
      dsimp only at g1 g2 g3 g4 h2
      subst h2
      by_cases hr : Refused a.reqs m ok
      · simp only [hr, if_true]; exact ⟨⟨g1, g2, g3, g4⟩, by simp⟩
      · simp only [hr, if_false]; exact ⟨⟨g1, g2, g3, by simp [g4, List.map_set]⟩, by simp⟩
    · simp only [hi, if_false, false_imp_iff, iff_true]
      exact ⟨h, trivial⟩

/-- **C45** Exactly, for every sequence of constructions and `set_model` calls and every outcome of the
loads: each instance has the pipeline that was loaded at the beginning of the run of requests for the
name it was last served with (none if that load failed); models are loaded as often as the requested
name changes to one that can be loaded; and an operation raises exactly if it asks for another model than
the request before and that model cannot be loaded. -/
theorem magic_exact (ops : List MagicOp) :
    let s := ops.foldl (fun s op => (s.step op).1) MagicState.init
    let a := ops.foldl Asked.step ⟨[], []⟩
    s.instances = a.served.map pipelineFor ∧ s.loads = loadsNeeded none a.reqs ∧
    s.name = a.reqs.getLast?.map (·.1) ∧
    ∀ op, (s.step op).2 = true ↔ a.raises op := by
  intro s a
  have key : ∀ (ops : List MagicOp) (s : MagicState) (a : Asked), MagicExact s a →
      MagicExact (ops.foldl (fun s op => (s.step op).1) s) (ops.foldl Asked.step a) := by
    intro ops
    induction ops with
    | nil => intro s a h; exact h
    | cons op ops ih => intro s a h; exact ih _ _ (step_exact h op).1
  have h : MagicExact s a := key ops _ _ ⟨rfl, rfl, rfl, rfl⟩
  exact ⟨h.inst, h.loads, h.name, fun op => (step_exact h op).2⟩

/-- Non-vacuity: the first load of `m` fails and raises; the second request makes an instance without a
pipeline; a request for `n` loads, and one for `m` loads again. -/
example : ([MagicOp.new c!"m" false, .new c!"m" true, .new c!"n" true, .set 0 c!"m" true].foldl
      Asked.step ⟨[], []⟩).served.map pipelineFor = [some (c!"m", 1), some (c!"n", 0)] ∧
    ([MagicOp.new c!"m" false, .new c!"m" true, .new c!"n" true].foldl
      Asked.step ⟨[], []⟩).served.map pipelineFor = [none, some (c!"n", 0)] := by decide +kernel

/-- **C45** If no load failed, every instance has a pipeline, and it was loaded for the model the
instance was last asked to use (for failed loads see `magic_exact` and
`magic_no_pipeline_after_failed_load`). -/
theorem magic_pipeline (s : MagicState) (names : List Str) (reqs : List (Str × Bool))
    (h : MagicHistory s names reqs) (hok : ∀ r ∈ reqs, r.2 = true) (i : Nat) (m : Str)
    (hi : names[i]? = some m) : ∃ k, s.instances[i]? = some (some (m, k)) := by
  have inv := magic_inv h
  have hlt : i < s.instances.length := by rw [inv.length]; exact (List.getElem?_eq_some_iff.1 hi).1
  have hget := List.getElem?_eq_getElem hlt
  rcases inv.inst i _ m hget hi with h1 | ⟨k, h1, -⟩
  · exact absurd h1 ((inv.good hok).2 _ (List.getElem_mem hlt))
  · exact ⟨k, by rw [hget, h1]⟩

/-- After a failed load: asking for the same model again does not raise, does not load, and
leaves the instance without a pipeline, although the model could now be loaded. -/
theorem magic_no_pipeline_after_failed_load :
    ∃ s names reqs, MagicHistory s names reqs ∧ names = [c!"m"] ∧
      reqs = [(c!"m", false), (c!"m", true)] ∧ s.instances = [none] ∧ s.loads = 0 :=
  ⟨_, _, _, .step (.new c!"m" true) (.step (.new c!"m" false) .start), by decide, by decide, by decide,
    by decide⟩

/-- The reported model name is that of the last request of any instance, so an instance can report
another model than it uses. -/
theorem magic_name_is_shared (s : MagicState) (names : List Str) (reqs : List (Str × Bool))
    (h : MagicHistory s names reqs) : s.name = reqs.getLast?.map (·.1) :=
  (magic_inv h).name

/-- Non-vacuity: two instances for `a` share a pipeline, then the first changes to `b` and the second
keeps its own; the reported name is `b` for both. -/
example : ∃ s names reqs, MagicHistory s names reqs ∧ (∀ r ∈ reqs, r.2 = true) ∧ names = [c!"b", c!"a"] ∧
    s.instances = [some (c!"b", 1), some (c!"a", 0)] ∧ s.loads = 2 ∧ s.name = some c!"b" :=
  ⟨_, _, _, .step (.set 0 c!"b" true) (.step (.new c!"a" true) (.step (.new c!"a" true) .start)),
    by decide, by decide, by decide, by decide, by decide⟩

end Verif.Props
