import Verif.Proofs.ParserTokens
import Verif.Proofs.Tree
import Verif.Spec.Parsed
/-! # The shape of parsed templates, for any text and any parser configuration -/

namespace Verif
open Spec (Shaped ShapedPath ShapedPathPart isSequence isLiteral)

/-- Every result satisfies `Q`. -/
def P.All {α : Type} (Q : α → Prop) (x : P α) : Prop := ∀ a r, x = .ok a r → Q a

namespace P.All
variable {α β : Type} {Q : α → Prop} {R : β → Prop}

theorem ok {a : α} {r : Str} (h : Q a) : P.All Q (.ok a r) := by
  rintro _ _ ⟨rfl, rfl⟩; exact h

theorem fail : P.All Q .fail := by rintro _ _ ⟨⟩
theorem err {e : Err} : P.All Q (.err e) := by rintro _ _ ⟨⟩
theorem fuel : P.All Q .fuel := by rintro _ _ ⟨⟩

theorem true {x : P α} : P.All (fun _ => True) x := fun _ _ _ => trivial

theorem bind {x : P α} {f : α → Str → P β} (h : P.All Q x) (hf : ∀ a r, Q a → P.All R (f a r)) :
    P.All R (x.bind f) := by
  cases x with
  | ok a r => exact hf a r (h a r rfl)
  | fail => exact fail
  | err e => exact err
  | fuel => exact fuel

theorem skip' {x : P α} {f : α → Str → P β} (hf : ∀ a r, P.All R (f a r)) : P.All R (x.bind f) :=
  bind (Q := fun _ => True) true fun a r _ => hf a r

theorem or {x y : P α} (h : P.All Q x) (h' : P.All Q y) : P.All Q (x.or y) := by
  cases x with
  | fail => exact h'
  | ok a r => exact h
  | err e => exact h
  | fuel => exact h

theorem opt {x : P α} {s : Str} (h : P.All Q x) : P.All (fun o : Option α => ∀ a ∈ o, Q a) (x.opt s) := by
  cases x with
  | ok a r => exact ok (by rintro b ⟨⟩; exact h a r rfl)
  | fail => exact ok (by rintro b ⟨⟩)
  | err e => exact err
  | fuel => exact fuel

theorem many {stop : Str → Bool} {p : Str → P α} (h : ∀ s, P.All Q (p s)) : ∀ (n : Nat) (s : Str),
    P.All (fun l : List α => ∀ a ∈ l, Q a) (many stop p n s)
  | 0, _ => fuel
  | n + 1, s => by
    unfold Verif.many
    split
    · exact ok (by simp)
    · have hp := h s
      split
      · rename_i a r e
        refine bind (many h n r) fun as r' has => ok ?_
        rintro b hb
        rcases List.mem_cons.1 hb with rfl | hb
        · exact hp _ _ e
        · exact has b hb
      · exact ok (by simp)
      · exact err
      · exact fuel

end P.All

theorem pyJoin_cons_ne {sep x : Str} {xs : List Str} (hx : x ≠ []) : pyJoin sep (x :: xs) ≠ [] := by
  cases xs <;> simp [pyJoin, hx]

theorem litPieces_ne (wrap : Str) (ex : Char → Bool) : ∀ (n : Nat) (s : Str),
    ∀ x ∈ (litPieces wrap ex n s).1, x ≠ []
  | 0, _ => by simp [litPieces]
  | n + 1, s => by
    unfold litPieces
    dsimp only
    split
    · simp
    · rename_i h
      intro x hx
      rcases List.mem_cons.1 hx with rfl | hx
      · simpa using h
      · exact litPieces_ne wrap ex n _ x hx

/-- Literals are not empty. -/
def IsLit (c : Cmd) : Prop := ∃ s, s ≠ [] ∧ c = .lit s none

theorem literal_all (wrap : Str) (ex : Char → Bool) (s : Str) : P.All IsLit (literal wrap ex s) := by
  unfold literal
  dsimp only
  split
  · exact .fail
  · rename_i h
    refine .ok ⟨_, ?_, rfl⟩
    have := litPieces_ne wrap ex s.length s
    cases hx : (litPieces wrap ex s.length s).1 with
    | nil => rw [hx] at h; simp at h
    | cons x xs => exact pyJoin_cons_ne (this x (by rw [hx]; simp))

theorem nameTok_all (s : Str) : P.All (fun n => Spec.varName n = true) (nameTok s) := by
  unfold nameTok
  split
  · exact .fail
  · rename_i c cs _
    dsimp only
    split
    · rename_i h
      refine .ok ?_
      have hh : Spec.letter c = true ∨ c = '_' ∨ c = '-' := by
        rw [letter_eq]
        simpa [or_assoc] using h
      unfold Spec.varName Spec.beginsWith
      rw [List.head?_cons, Option.any_some, List.all_cons, Bool.and_eq_true, Bool.and_eq_true]
      refine ⟨by rcases hh with h | rfl | rfl <;> simp_all, by rcases hh with h | rfl | rfl <;> simp_all, ?_⟩
      have := List.all_takeWhile (p := fun c => isAlpha c || isNum c || c == '_' || c == '-') (l := cs)
      rw [List.all_eq_true] at this ⊢
      intro x hx
      have := this x hx
      rw [letter_eq, digit_eq]
      simp only [Bool.or_eq_true, beq_iff_eq] at this
      rcases this with ((h | h) | rfl) | rfl <;> simp_all
    · exact .fail

theorem sepTok_all (s : Str) : P.All (fun w => Spec.separator w = true) (sepTok s) := by
  unfold sepTok
  dsimp only
  split
  · exact .fail
  · rename_i h
    refine .skip' fun _ r => .ok ?_
    unfold Spec.separator
    rw [Bool.and_eq_true]
    refine ⟨by simpa using h, ?_⟩
    have := List.all_takeWhile (p := isSepChar) (l := skip s)
    rw [List.all_eq_true] at this ⊢
    intro x hx
    have := this x hx
    simpa [isSepChar, isPrintable, and_assoc] using this

theorem boundExpr_all (s : Str) : P.All (fun b => Spec.separator b.2 = true) (boundExpr s) := by
  unfold boundExpr
  refine .skip' fun _ s => .skip' fun _ s => (P.All.opt (sepTok_all s)).bind fun sep r h => .ok ?_
  cases sep with
  | none => rfl
  | some w => exact h w rfl

/-- A part of a template: no sequence. -/
def IsPart (top : Bool) (c : Cmd) : Prop := Shaped top c ∧ isSequence c = false

theorem IsLit.part {top : Bool} {c : Cmd} (h : IsLit c) : IsPart top c := by
  obtain ⟨s, hs, rfl⟩ := h
  exact ⟨.lit hs, rfl⟩

theorem seqCmd_shaped {top : Bool} : ∀ {cs : List Cmd}, (∀ c ∈ cs, IsPart top c) → Shaped top (seqCmd cs)
  | [], _ => .seq (by simp) (by simp) (by simp)
  | [c], h => (h c (by simp)).1
  | c :: d :: cs, h => .seq (by simp) (fun x hx => (h x hx).1) (fun x hx => (h x hx).2)

section
variable {cfg : ParserCfg} {vp : Str → P Cmd} (hv : ∀ s, P.All (Shaped false) (vp s))
include hv

theorem optionTok_all (s : Str) : P.All (fun o => Shaped false o.1) (optionTok vp s) := by
  unfold optionTok
  exact .skip' fun _ r => (hv r).bind fun c s h => .ok h

theorem optionsTok_all (s : Str) :
    P.All (fun os => os ≠ [] ∧ ∀ o ∈ os, Shaped false o.1) (optionsTok vp s) := by
  unfold optionsTok
  refine (optionTok_all hv s).bind fun o r ho =>
    (P.All.many (Q := fun o : Cmd × Rat => Shaped false o.1)
      (fun s => .skip' fun _ r => optionTok_all hv r) _ _).bind fun os r' hos => .ok ⟨by simp, ?_⟩
  intro x hx
  rcases List.mem_cons.1 hx with rfl | hx
  · exact ho
  · exact hos x hx

omit hv in
theorem variantCmd_shaped {top : Bool} {m : Option Method} {b : Option (BoundSpec × Str)} {opts : List (Cmd × Rat)}
    (hb : ∀ x ∈ b, Spec.separator x.2 = true) (h0 : opts ≠ []) (h : ∀ o ∈ opts, Shaped false o.1) :
    Shaped top (variantCmd m b opts) := by
  unfold variantCmd
  cases b with
  | none => exact .variant h0 h (by decide) (by decide) rfl
  | some b =>
    refine .variant h0 h (Int.le_max_left _ _) ?_ (hb b rfl)
    obtain ⟨b, s⟩ := b
    show max 0 (min _ _) ≤ max _ _
    cases b <;> simp only [BoundSpec.bounds] <;> omega

omit hv in
theorem isSequence_variantCmd (m : Option Method) (b : Option (BoundSpec × Str)) (opts : List (Cmd × Rat)) :
    isSequence (variantCmd m b opts) = false := by
  cases b <;> rfl

theorem variantsTok_all (top : Bool) (s : Str) : P.All (IsPart top) (variantsTok cfg vp s) := by
  unfold variantsTok
  exact .skip' fun _ _ => .skip' fun _ _ => (P.All.opt (boundExpr_all _)).bind fun b _ hb =>
    (optionsTok_all hv _).bind fun opts _ ho => .skip' fun _ _ =>
      .ok ⟨variantCmd_shaped hb ho.1 ho.2, isSequence_variantCmd _ _ _⟩

theorem accessTok_all (s : Str) :
    P.All (fun nd => Spec.varName nd.1 = true ∧ ∀ d ∈ nd.2, Shaped false d) (accessTok cfg vp s) := by
  unfold accessTok
  exact .skip' fun _ _ => (nameTok_all _).bind fun n _ hn =>
    (P.All.opt (.skip' fun _ _ => hv _)).bind fun d _ hd => .skip' fun _ _ => .ok ⟨hn, hd⟩

theorem variableAccess_all (top : Bool) (s : Str) : P.All (IsPart top) (variableAccess cfg vp s) := by
  unfold variableAccess
  refine (accessTok_all hv s).bind fun nd _ h => .ok ⟨?_, rfl⟩
  obtain ⟨n, d⟩ := nd
  cases d with
  | none => exact .access h.1
  | some d => exact .accessD h.1 (h.2 d rfl)

theorem wildcardVariableAccess_all (s : Str) :
    P.All ShapedPathPart (wildcardVariableAccess cfg vp s) := by
  unfold wildcardVariableAccess
  refine (accessTok_all hv s).bind fun nd _ h => ?_
  split
  · exact .ok (.access h.1)
  · exact .err

theorem variableAssignment_all (s : Str) : P.All (IsPart true) (variableAssignment cfg vp s) := by
  unfold variableAssignment
  exact .skip' fun _ _ => (nameTok_all _).bind fun n _ hn => .skip' fun _ _ => .skip' fun _ _ =>
    .skip' fun _ _ => (hv _).bind fun v _ hv => .skip' fun _ _ => .ok ⟨.assign hn hv, rfl⟩

theorem wrapCommand_all (top : Bool) (s : Str) : P.All (IsPart top) (wrapCommand cfg vp s) := by
  unfold wrapCommand
  exact .skip' fun _ _ => (hv _).bind fun a _ ha => .skip' fun _ _ => (hv _).bind fun b _ hb =>
    .skip' fun _ _ => .ok ⟨.wrap ha hb, rfl⟩

theorem variantsTok_path (s : Str) : P.All ShapedPathPart (variantsTok cfg vp s) := by
  unfold variantsTok
  refine .skip' fun _ _ => .skip' fun _ _ => (P.All.opt (boundExpr_all _)).bind fun b _ hb =>
    (optionsTok_all hv _).bind fun opts _ ho => .skip' fun _ _ => .ok ?_
  have := variantCmd_shaped (top := false) (m := ‹_›) hb ho.1 ho.2
  revert this
  cases b <;> exact fun h => .variant h

omit hv in
theorem IsLit.path {c : Cmd} (h : IsLit c) : ShapedPathPart c := by
  obtain ⟨s, hs, rfl⟩ := h
  exact .lit hs

theorem wildcardPath_all (s : Str) : P.All ShapedPath (wildcardPath cfg vp s) := by
  unfold wildcardPath
  refine (P.All.many (Q := ShapedPathPart) (fun s => ?_) _ _).bind fun cs _ h => ?_
  · exact .or (wildcardVariableAccess_all hv _) (.or (variantsTok_path hv _)
      (.or (fun a r e => (literal_all _ _ _ a r e).path) (fun a r e => (literal_all _ _ _ a r e).path)))
  · split
    · exact .fail
    · rename_i hne
      refine .ok ?_
      match cs, h, hne with
      | [], _, hne => simp at hne
      | [c], h, _ => exact .part (h c (by simp))
      | c :: d :: cs, h, _ => exact .seq (by simp) h

variable {pv : Str → P Cmd} (hp : ∀ s, P.All (Shaped true) (pv s))
include hp

omit hv in
theorem parseSpec_all : ∀ ps : List Str,
    P.All (fun l : List (Str × Cmd) => ∀ p ∈ l, Shaped true p.2) (parseSpec pv ps)
  | [] => .ok (by simp)
  | p :: ps => by
    unfold parseSpec
    refine (hp _).bind fun c _ hc => (parseSpec_all ps).bind fun l _ hl => .ok ?_
    intro x hx
    rcases List.mem_cons.1 hx with rfl | hx
    · exact hc
    · exact hl x hx

omit hv hp in
theorem dict_update_all {Q : Cmd → Prop} : ∀ (l d : List (Str × Cmd)), (∀ p ∈ d, Q p.2) → (∀ p ∈ l, Q p.2) →
    ∀ p ∈ Dict.update d l, Q p.2
  | [], _, hd, _ => hd
  | (k, v) :: l, d, hd, hl => by
    refine dict_update_all l (Dict.set d k v) ?_ fun p hp => hl p (List.mem_cons_of_mem _ hp)
    have hv : Q v := hl (k, v) List.mem_cons_self
    clear hl
    induction d with
    | nil =>
      intro p hp
      simp only [Dict.set, List.mem_singleton] at hp
      rw [hp]
      exact hv
    | cons e d ih =>
      obtain ⟨k', v'⟩ := e
      intro p hp
      rw [Dict.set] at hp
      split at hp
      · rcases List.mem_cons.1 hp with rfl | hp
        · exact hv
        · exact hd p (List.mem_cons_of_mem _ hp)
      · rcases List.mem_cons.1 hp with rfl | hp
        · exact hd (k', v') List.mem_cons_self
        · exact ih (fun p hp => hd p (List.mem_cons_of_mem _ hp)) p hp

omit hv hp in
theorem wildcardCmd_part {top : Bool} {m : Option Method} {c : Cmd} {vars : List (Str × Cmd)}
    (hc : ShapedPath c) (hvars : ∀ p ∈ vars, Shaped true p.2) (hn : (vars.map Prod.fst).Nodup) :
    IsPart top (wildcardCmd m c vars) := by
  unfold wildcardCmd
  cases hc with
  | part h =>
    cases h with
    | lit h => exact ⟨.named h hvars hn, rfl⟩
    | variant h => exact ⟨.path (.part (.variant h)) rfl hvars hn, rfl⟩
    | access h => exact ⟨.path (.part (.access h)) rfl hvars hn, rfl⟩
  | seq h1 h2 => exact ⟨.path (.seq h1 h2) rfl hvars hn, rfl⟩

theorem wildcardTok_all (top : Bool) (s : Str) : P.All (IsPart top) (wildcardTok cfg vp pv s) := by
  unfold wildcardTok
  refine .skip' fun _ _ => .skip' fun _ _ => (wildcardPath_all hv _).bind fun path _ hpath =>
    .skip' fun spec _ => .skip' fun _ _ => ?_
  cases spec with
  | none => exact .ok (wildcardCmd_part hpath (by simp) (by simp))
  | some w => exact (parseSpec_all hp _).bind fun vars _ hvars => P.All.ok <|
      wildcardCmd_part hpath (dict_update_all _ _ (by simp) hvars) (Dict.nodup_update _ _ List.nodup_nil)

theorem variantChunk_all (s : Str) : P.All (IsPart false) (variantChunk cfg vp pv s) :=
  .or (variableAccess_all hv _ _) (.or (wrapCommand_all hv _ _) (.or (variantsTok_all hv _ _)
    (.or (wildcardTok_all hv hp _ _) fun a r e => (literal_all _ _ _ a r e).part)))

theorem chunk_all (s : Str) : P.All (IsPart true) (chunk cfg vp pv s) :=
  .or (variableAssignment_all hv _) (.or (variableAccess_all hv _ _) (.or (wrapCommand_all hv _ _)
    (.or (variantsTok_all hv _ _) (.or (wildcardTok_all hv hp _ _)
      fun a r e => (literal_all _ _ _ a r e).part))))

theorem variantPrompt_all (s : Str) : P.All (Shaped false) (variantPrompt cfg vp pv s) := by
  unfold variantPrompt
  exact (P.All.many (variantChunk_all hv hp) _ _).bind fun cs _ h => .ok (seqCmd_shaped h)

theorem parseTok_all (s : Str) : P.All (Shaped true) (parseTok cfg vp pv s) := by
  unfold parseTok promptTok
  split
  · rename_i h
    simp only [Bool.and_eq_true, Bool.not_eq_true', List.isEmpty_eq_false_iff] at h
    exact .ok (.lit h.1)
  · refine (P.All.many (chunk_all hv hp) _ _).bind fun cs _ h => ?_
    split
    · exact .ok (seqCmd_shaped h)
    · exact .fail

end

theorem parsers_all (cfg : ParserCfg) : ∀ (n : Nat) (s : Str),
    P.All (Shaped false) ((parsers cfg n).1 s) ∧ P.All (Shaped true) ((parsers cfg n).2 s)
  | 0, _ => ⟨.fuel, .fuel⟩
  | n + 1, s =>
    have h1 := fun s => (parsers_all cfg n s).1
    have h2 := fun s => (parsers_all cfg n s).2
    ⟨variantPrompt_all h1 h2 s, parseTok_all h1 h2 s⟩

theorem parse_shaped {cfg : ParserCfg} {s : Str} {c : Cmd} (h : parse cfg s = .ok c) : Shaped true c := by
  unfold parse parseAt at h
  split at h
  · rename_i c' r e
    simp only [Option.getD_some, Except.ok.injEq] at h
    subst h
    exact (parsers_all cfg _ _).2 _ _ e
  all_goals cases h

/-! ## Which exceptions end parsing -/

/-- The only exception that ends parsing is `AttributeError`. -/
def P.Attr {α : Type} (x : P α) : Prop := ∀ e, x = .err e → e = .attr

namespace P.Attr
variable {α β : Type}

theorem ok {a : α} {r : Str} : P.Attr (.ok a r) := by rintro _ ⟨⟩
theorem fail : P.Attr (.fail : P α) := by rintro _ ⟨⟩
theorem fuel : P.Attr (.fuel : P α) := by rintro _ ⟨⟩
theorem attr : P.Attr (.err .attr : P α) := by rintro _ ⟨⟩; rfl

theorem bind {x : P α} {f : α → Str → P β} (h : P.Attr x) (hf : ∀ a r, P.Attr (f a r)) :
    P.Attr (x.bind f) := by
  cases x with
  | ok a r => exact hf a r
  | fail => exact fail
  | err e => rw [h e rfl]; exact attr
  | fuel => exact fuel

theorem or {x y : P α} (h : P.Attr x) (h' : P.Attr y) : P.Attr (x.or y) := by
  cases x with
  | fail => exact h'
  | ok a r => exact h
  | err e => exact h
  | fuel => exact h

theorem opt {x : P α} {s : Str} (h : P.Attr x) : P.Attr (x.opt s) := by
  cases x with
  | ok a r => exact ok
  | fail => exact ok
  | err e => rw [h e rfl]; exact attr
  | fuel => exact fuel

theorem many {stop : Str → Bool} {p : Str → P α} (h : ∀ s, P.Attr (p s)) : ∀ (n : Nat) (s : Str),
    P.Attr (many stop p n s)
  | 0, _ => fuel
  | n + 1, s => by
    unfold Verif.many
    split
    · exact ok
    · have hp := h s
      split
      · rename_i a r e
        exact bind (many h n r) fun as r' => ok
      · exact ok
      · rename_i e he
        rw [hp e he]
        exact attr
      · exact fuel

end P.Attr

theorem tok_attr (t s : Str) : P.Attr (tok t s) := by
  unfold tok; split
  · exact .ok
  · exact .fail

theorem intTok_attr (s : Str) : P.Attr (intTok s) := by
  unfold intTok; dsimp only; split
  · exact .fail
  · exact .ok

theorem realTok_attr (s : Str) : P.Attr (realTok s) := by
  unfold realTok
  dsimp only
  repeat' split
  all_goals first
    | exact .ok
    | exact .fail

theorem nameTok_attr (s : Str) : P.Attr (nameTok s) := by
  unfold nameTok
  split
  · exact .fail
  · dsimp only; split
    · exact .ok
    · exact .fail

theorem samplerTok_attr (s : Str) : P.Attr (samplerTok s) := by
  unfold samplerTok
  split
  · exact .ok
  · exact .ok
  · exact .ok
  · exact .fail

theorem literal_attr (w : Str) (ex : Char → Bool) (s : Str) : P.Attr (literal w ex s) := by
  unfold literal; dsimp only; split
  · exact .fail
  · exact .ok

theorem boundExpr_attr (s : Str) : P.Attr (boundExpr s) := by
  unfold boundExpr boundRangeTok sepTok
  refine .bind (.or (.bind (intTok_attr _) fun _ _ => .bind (tok_attr _ _) fun _ _ =>
      .bind (intTok_attr _) fun _ _ => .ok)
    (.or (.bind (tok_attr _ _) fun _ _ => .bind (intTok_attr _) fun _ _ => .ok)
      (.or (.bind (intTok_attr _) fun _ _ => .bind (tok_attr _ _) fun _ _ => .ok)
        (.bind (intTok_attr _) fun _ _ => .ok)))) fun _ _ =>
    .bind (tok_attr _ _) fun _ _ => .bind (.opt ?_) fun _ _ => .ok
  dsimp only
  split
  · exact .fail
  · exact .bind (tok_attr _ _) fun _ _ => .ok

theorem weightTok_attr (s : Str) : P.Attr (weightTok s) := by
  unfold weightTok
  exact .bind (.or (realTok_attr _) (.bind (intTok_attr _) fun _ _ => .ok)) fun _ _ =>
    .bind (tok_attr _ _) fun _ _ => .ok

theorem specTok_attr (s : Str) : P.Attr (specTok s) := by
  unfold specTok
  refine .bind (tok_attr _ _) fun _ _ => ?_
  dsimp only
  split
  · exact .fail
  · exact .bind (tok_attr _ _) fun _ _ => .ok

section
variable {cfg : ParserCfg} {vp pv : Str → P Cmd} (hv : ∀ s, P.Attr (vp s)) (hp : ∀ s, P.Attr (pv s))
include hv

theorem optionTok_attr (s : Str) : P.Attr (optionTok vp s) := by
  unfold optionTok
  exact .bind (.opt (weightTok_attr _)) fun _ _ => .bind (hv _) fun _ _ => .ok

theorem variantsTok_attr (s : Str) : P.Attr (variantsTok cfg vp s) := by
  unfold variantsTok optionsTok
  exact .bind (tok_attr _ _) fun _ _ => .bind (.opt (samplerTok_attr _)) fun _ _ =>
    .bind (.opt (boundExpr_attr _)) fun _ _ => .bind (.bind (optionTok_attr hv _) fun _ _ =>
      .bind (.many (fun s => .bind (tok_attr _ _) fun _ _ => optionTok_attr hv _) _ _) fun _ _ => .ok)
    fun _ _ => .bind (tok_attr _ _) fun _ _ => .ok

theorem accessTok_attr (s : Str) : P.Attr (accessTok cfg vp s) := by
  unfold accessTok
  exact .bind (tok_attr _ _) fun _ _ => .bind (nameTok_attr _) fun _ _ =>
    .bind (.opt (.bind (tok_attr _ _) fun _ _ => hv _)) fun _ _ => .bind (tok_attr _ _) fun _ _ => .ok

theorem variableAssignment_attr (s : Str) : P.Attr (variableAssignment cfg vp s) := by
  unfold variableAssignment
  exact .bind (tok_attr _ _) fun _ _ => .bind (nameTok_attr _) fun _ _ =>
    .bind (.opt (tok_attr _ _)) fun _ _ => .bind (tok_attr _ _) fun _ _ =>
    .bind (.opt (tok_attr _ _)) fun _ _ => .bind (hv _) fun _ _ => .bind (tok_attr _ _) fun _ _ => .ok

theorem wrapCommand_attr (s : Str) : P.Attr (wrapCommand cfg vp s) := by
  unfold wrapCommand
  exact .bind (tok_attr _ _) fun _ _ => .bind (hv _) fun _ _ => .bind (tok_attr _ _) fun _ _ =>
    .bind (hv _) fun _ _ => .bind (tok_attr _ _) fun _ _ => .ok

theorem wildcardPath_attr (s : Str) : P.Attr (wildcardPath cfg vp s) := by
  unfold wildcardPath
  refine .bind (.many (fun s => ?_) _ _) fun cs _ => ?_
  · refine .or (.bind (accessTok_attr hv _) fun nd _ => ?_) (.or (variantsTok_attr hv _)
      (.or (literal_attr _ _ _) (literal_attr _ _ _)))
    split
    · exact .ok
    · exact .attr
  · split
    · exact .fail
    · exact .ok

include hp

omit hv in
theorem parseSpec_attr : ∀ ps : List Str, P.Attr (parseSpec pv ps)
  | [] => .ok
  | p :: ps => by
    unfold parseSpec
    exact .bind (hp _) fun _ _ => .bind (parseSpec_attr ps) fun _ _ => .ok

theorem wildcardTok_attr (s : Str) : P.Attr (wildcardTok cfg vp pv s) := by
  unfold wildcardTok
  refine .bind (tok_attr _ _) fun _ _ => .bind (.opt (samplerTok_attr _)) fun _ _ =>
    .bind (wildcardPath_attr hv _) fun _ _ => .bind (.opt (specTok_attr _)) fun spec _ =>
    .bind (tok_attr _ _) fun _ _ => ?_
  cases spec with
  | none => exact .ok
  | some w => exact .bind (parseSpec_attr hp _) fun _ _ => .ok

theorem variantChunk_attr (s : Str) : P.Attr (variantChunk cfg vp pv s) :=
  .or (.bind (accessTok_attr hv _) fun _ _ => .ok) (.or (wrapCommand_attr hv _) (.or (variantsTok_attr hv _)
    (.or (wildcardTok_attr hv hp _) (literal_attr _ _ _))))

theorem chunk_attr (s : Str) : P.Attr (chunk cfg vp pv s) :=
  .or (variableAssignment_attr hv _) (.or (.bind (accessTok_attr hv _) fun _ _ => .ok)
    (.or (wrapCommand_attr hv _) (.or (variantsTok_attr hv _)
      (.or (wildcardTok_attr hv hp _) (literal_attr _ _ _)))))

theorem variantPrompt_attr (s : Str) : P.Attr (variantPrompt cfg vp pv s) := by
  unfold variantPrompt
  exact .bind (.many (variantChunk_attr hv hp) _ _) fun _ _ => .ok

theorem parseTok_attr (s : Str) : P.Attr (parseTok cfg vp pv s) := by
  unfold parseTok promptTok
  split
  · exact .ok
  · refine .bind (.many (chunk_attr hv hp) _ _) fun _ _ => ?_
    split
    · exact .ok
    · exact .fail

end

theorem parsers_attr (cfg : ParserCfg) : ∀ (n : Nat) (s : Str),
    P.Attr ((parsers cfg n).1 s) ∧ P.Attr ((parsers cfg n).2 s)
  | 0, _ => ⟨.fuel, .fuel⟩
  | n + 1, s =>
    have h1 := fun s => (parsers_attr cfg n s).1
    have h2 := fun s => (parsers_attr cfg n s).2
    ⟨variantPrompt_attr h1 h2 s, parseTok_attr h1 h2 s⟩

end Verif
