import Verif.Proofs.Bangs
/-!
# C44 Exclamation marks in a list of phrases
-/

namespace Verif.Props
open Verif Verif.Spec

/-- **C44** In a list of phrases, separated by a comma and a space, each phrase with `n` exclamation marks becomes
`(phrase:weight)` with the weight for `n` marks, and the others stay; only the marks after the last phrase are
lost.  This needs that no marked phrase is the end of another one with at least as many marks. `isWord` is the class `\w`. -/
theorem magic_phrases (isWord : Char → Bool) (weight : Nat → Str)
    (hsp : ∀ c, isSpace c = true → isWord c = false) (hw : ∀ c ∈ c!"(){}!-,;.", isWord c = false)
    (hwt : ∀ n, '!' ∉ weight n)
    (orig : Str) (phrases : List (Str × Nat)) (last : Str) (k : Nat)
    (hp : ∀ p ∈ phrases, Phrase isWord p.1) (hl : Phrase isWord last)
    (hclash : ∀ p ∈ phrases, ∀ q ∈ phrases, 0 < p.2 → p.2 ≤ q.2 → p.1 <:+ q.1 → p = q) :
    cleanMagic isWord weight orig (orig ++ c!" " ++
        joinWith c!", " (phrases.map (fun p => p.1 ++ List.replicate p.2 '!') ++
          [last ++ List.replicate k '!'])) =
      orig ++ c!" " ++
        joinWith c!", " (phrases.map (fun p =>
          if p.2 = 0 then p.1 else c!"(" ++ p.1 ++ c!":" ++ weight p.2 ++ c!")") ++ [last]) := by
  have hb : isWord '!' = false := hw '!' (by decide)
  have hcm : isWord ',' = false := hw ',' (by decide)
  have hns : ∀ c ∈ c!"(){}!-,;.", isSpace c = false := by decide
  have hclash' : ∀ p ∈ phrases, ∀ q ∈ phrases, p.2 ≠ 0 → p.2 ≤ q.2 → p.1 <:+ q.1 → p = q :=
    fun p hp q hq h0 => hclash p hp q hq (by omega)
  have e1 : phrases.map (fun p => p.1 ++ List.replicate p.2 '!') = phrases.map (marked weight []) := by
    refine List.map_congr_left fun p _ => ?_
    unfold marked
    split
    · rename_i h
      rw [h]
      simp
    · rw [if_neg (by simp)]
  have e2 : phrases.map (fun p => if p.2 = 0 then p.1 else c!"(" ++ p.1 ++ c!":" ++ weight p.2 ++ c!")") =
      phrases.map (marked weight ((phrases.filter (·.2 ≠ 0)).reverse ++ [])) := by
    refine List.map_congr_left fun p hp => ?_
    unfold marked
    split
    · rfl
    · rename_i h
      rw [if_pos (by simp [hp, h])]
  rw [e1, e2, joinWith_listing, joinWith_listing]
  have hlk : ∀ ss : List Str, listing ss (last ++ List.replicate k '!') = listing ss last ++ List.replicate k '!' := by
    intro ss; simp [listing]
  rw [hlk]
  generalize hcore : listing (phrases.map (marked weight [])) last = core
  have hchars : ∀ c ∈ core, c = '!' ∨ c = ',' ∨ c = ' ' ∨ ((isWord c = true ∨ isSpace c = true) ∧ c ≠ '_') := by
    intro c hc
    rw [← hcore] at hc
    unfold listing at hc
    rcases List.mem_append.1 hc with hc | hc
    · obtain ⟨s, hs, hc⟩ := List.mem_flatMap.1 hc
      obtain ⟨p, hpm, rfl⟩ := List.mem_map.1 hs
      rcases List.mem_append.1 hc with hc | hc
      · unfold marked at hc
        split at hc
        · exact .inr (.inr (.inr ((hp p hpm).chars c hc)))
        · rw [if_neg (by simp)] at hc
          rcases List.mem_append.1 hc with hc | hc
          · exact .inr (.inr (.inr ((hp p hpm).chars c hc)))
          · exact .inl (List.eq_of_mem_replicate hc)
      · simp at hc
        tauto
    · exact .inr (.inr (.inr (hl.chars c hc)))
  have hout : ∀ c ∈ core, c ∉ c!"(){}-;._" := by
    intro c hc hm
    rcases hchars c hc with rfl | rfl | rfl | ⟨h, h'⟩
    · exact absurd hm (by decide)
    · exact absurd hm (by decide)
    · exact absurd hm (by decide)
    · have hm' : c ∈ c!"(){}!-,;." := by
        simp at hm ⊢
        tauto
      rw [hw c hm', hns c hm'] at h
      simp at h
  have hs : startsWith (orig ++ c!" " ++ (core ++ List.replicate k '!')) orig = true := by
    unfold startsWith
    rw [List.isPrefixOf_iff_prefix, List.append_assoc]
    exact List.prefix_append _ _
  obtain ⟨d, z, hd, hdw⟩ := listing_head hp hl weight
  rw [hcore] at hd
  have hbrace : (c!" " ++ core ++ List.replicate k '!').map deBrace = c!" " ++ core ++ List.replicate k '!' := by
    refine (List.map_congr_left (fun c hc => ?_)).trans (List.map_id _)
    have : c ≠ '{' ∧ c ≠ '}' := by
      rcases List.mem_append.1 hc with hc | hc
      · rcases List.mem_append.1 hc with hc | hc
        · simp at hc
          subst hc
          decide
        · have := hout c hc
          simp at this
          tauto
      · rw [List.eq_of_mem_replicate hc]
        decide
    unfold deBrace
    rw [if_neg this.1, if_neg this.2]
    rfl
  have hstrip : stripP (fun c => !isWord c)
      (strip ((c!" " ++ core ++ List.replicate k '!').map deBrace)) = core := by
    rw [hbrace]
    refine strip_core (by rw [hd]; simp) hsp ?_ ?_ ?_ ?_
    · intro c hc
      rw [hd] at hc
      cases hc
      exact hdw
    · intro c hc
      obtain ⟨e, he, hew⟩ := hl.final
      rw [← hcore] at hc
      unfold listing at hc
      rw [List.getLast?_append, he] at hc
      cases hc
      exact hew
    · intro c hc
      simp only [List.mem_singleton] at hc
      subst hc
      exact hsp ' ' (by decide)
    · intro c hc
      rw [List.eq_of_mem_replicate hc]
      exact hb
  have htidy : tidied isWord core = core := by
    refine tidied_commas (fun c hc => ?_) (hcore ▸ tidyCommas_listing hcm hsp hp hl weight)
    have := hout c hc
    simp at this ⊢
    tauto
  unfold cleanMagic
  rw [if_pos hs]
  have hdrop : (orig ++ c!" " ++ (core ++ List.replicate k '!')).drop orig.length =
      c!" " ++ core ++ List.replicate k '!' := by
    rw [List.append_assoc, List.drop_left, List.append_assoc]
  rw [hdrop, cleanAdded_eq]
  dsimp only
  rw [hstrip, htidy, ← hcore, find_marks hb hcm hsp hp hl weight none rfl _ le_rfl,
    apply_marks hwt hb hcm hsp hp hl hclash']
  intro p hp
  simpa using hp

section Examples

/-- The word characters of ASCII. -/
def asciiWord (c : Char) : Bool := c.isAlphanum || c == '_'

/-- Some weights. -/
def someWeight (n : Nat) : Str := if n = 1 then c!"1.1" else if n = 2 then c!"1.21" else c!"9"

/-- Non-vacuity: phrases without marks, with marks, with the same marks twice; the last one loses its marks. -/
example :
    let phrases := [(c!"soft fur", 2), (c!"big eyes", 0), (c!"red hat", 1), (c!"soft fur", 2)]
    (∀ p ∈ phrases, ∀ q ∈ phrases, 0 < p.2 → p.2 ≤ q.2 → p.1 <:+ q.1 → p = q) ∧
    cleanMagic asciiWord someWeight c!"a cat"
        c!"a cat soft fur!!, big eyes, red hat!, soft fur!!, art!!!" =
      c!"a cat (soft fur:1.21), big eyes, (red hat:1.1), (soft fur:1.21), art" := by
  decide +kernel

/-- The condition is needed: a marked phrase that is the end of a later one is weighted inside it, and the marks of
the later one may stay. -/
example :
    cleanMagic asciiWord someWeight c!"a cat" c!"a cat hat!, red hat!, big" =
      c!"a cat (hat:1.1), red (hat:1.1), big" ∧
    cleanMagic asciiWord someWeight c!"a cat" c!"a cat hat!, red hat!!, big" =
      c!"a cat (hat:1.1), red (hat:1.1)!, big" := by
  decide +kernel

end Examples

end Verif.Props
