import Verif.Proofs.ParserSymbols
import Verif.Proofs.RandomFree
/-! Commands made of given characters and methods stay so, and so are their texts. -/

namespace Verif
open Spec
variable {W : Type} {E : Env W} {K : Char → Prop} {A : Method → Prop}

/-- What the environment provides is made of the given characters and methods. -/
structure MadeEnv (E : Env W) (K : Char → Prop) (A : Method → Prop) : Prop where
  parse : ∀ s c, Over K s → E.parse s = .ok c → Made K A c
  values : ∀ wc items, Values E wc items → ∀ i ∈ items, Over K i.content

theorem made_part (h : MadeEnv E K A) {c c' : Cmd} (hc : Made K A c) (hp : Part E c c') : Made K A c' := by
  cases hp with
  | token hm => cases hc with | seq h _ _ => exact h _ hm
  | option hm => cases hc with | variant h _ _ => exact h _ hm
  | path => cases hc with | path h _ _ => exact h
  | pathText hp => cases hc with | named hs _ _ => exact h.parse _ _ hs hp
  | param hm =>
    cases hc with
    | named _ h _ => exact h _ hm
    | path _ h _ => exact h _ hm
  | value _ hv hi hp => exact h.parse _ _ (h.values _ _ hv _ hi) hp
  | assigned => cases hc with | assign h => exact h
  | default => cases hc with | accessD h => exact h
  | wrapper => cases hc with | wrap h _ _ => exact h
  | inner => cases hc with | wrap _ h _ => exact h

theorem made_method {c : Cmd} (hc : Made K A c) {m : Method} (hm : c.method = some m) : A m := by
  cases hc with
  | lit _ h => exact h m hm
  | seq _ _ h => exact h m hm
  | variant _ _ h => exact h m hm
  | named _ _ h => exact h m hm
  | path _ _ h => exact h m hm
  | assign _ => cases hm
  | access => cases hm
  | accessD _ => cases hm
  | wrap _ _ h => exact h m hm

theorem made_reach (h : MadeEnv E K A) {c c' : Cmd} (hc : Made K A c)
    (hr : Relation.ReflTransGen (Part E) c c') : Made K A c' := by
  induction hr with
  | refl => exact hc
  | tail _ hp ih => exact made_part h ih hp

/-! ## Texts -/

theorem over_removeprefix {s p : Str} (h : Over K s) : Over K (removeprefix s p) := by
  unfold removeprefix
  split
  · exact h.drop _
  · exact h

theorem over_removesuffix {s p : Str} (h : Over K s) : Over K (removesuffix s p) := by
  unfold removesuffix
  split
  · exact h.mono (List.take_subset _ _)
  · exact h

theorem over_joined {sep : Str} (hs : Over K sep) {l : List Str} (h : ∀ x ∈ l, Over K x) : Over K (joined sep l) := by
  unfold joined
  split
  · rename_i x
    exact h x (by simp)
  · dsimp only
    split
    · exact .join hs h
    · exact over_removesuffix (over_removeprefix (.join hs h))

theorem over_squash (hsp : K ' ') {s : Str} (h : Over K s) : Over K (squashWhitespace s) := by
  unfold squashWhitespace pySplit
  refine Spec.Over.join ?_ ?_
  · intro c hc
    rw [List.mem_singleton] at hc
    rw [hc]; exact hsp
  · intro x hx
    exact splitAt1_over _ s h x (List.mem_filter.1 hx).1

theorem over_wrapSearch : ∀ (s : Str) (pq : Str × Str), Over K s → wrapSearch s = some pq → Over K pq.1 ∧ Over K pq.2
  | [], _, _, h => by simp [wrapSearch] at h
  | c :: cs, pq, hs, h => by
    unfold wrapSearch at h
    dsimp only at h
    split at h
    · cases h
      exact ⟨.nil, hs.drop _⟩
    · have ih := over_wrapSearch cs
      cases hw : wrapSearch cs with
      | none => rw [hw] at h; cases h
      | some x =>
        rw [hw] at h
        cases h
        have := ih x (fun y hy => hs y (List.mem_cons_of_mem _ hy)) hw
        refine ⟨?_, this.2⟩
        intro y hy
        rcases List.mem_cons.1 hy with rfl | hy
        · exact hs _ (by simp)
        · exact this.1 y hy

theorem over_wrapWith {w s : Str} (hw : Over K w) (hs : Over K s) : Over K (wrapWith w s) := by
  unfold wrapWith
  dsimp only
  have : Over K (splitWrapper w).1 ∧ Over K (splitWrapper w).2 := by
    unfold splitWrapper
    split
    · exact ⟨hw, .nil⟩
    · rename_i pq e
      exact over_wrapSearch w pq hw e
  refine over_joined .nil ?_
  intro x hx
  simp only [List.mem_cons, List.not_mem_nil, or_false] at hx
  rcases hx with rfl | rfl | rfl
  · exact this.1
  · exact hs
  · exact this.2

theorem over_if_squash (hsp : K ' ') {s : Str} (b : Bool) (h : Over K s) :
    Over K (if b then squashWhitespace s else s) := by
  cases b
  · exact h
  · exact over_squash hsp h

theorem made_resolves {unknown : Option Cmd} {vars : List (Str × Cmd)} {n : Str} {d : Option Cmd} {c : Cmd}
    (hu : ∀ u, unknown = some u → Made K A u) (hv : ∀ b ∈ vars, Made K A b.2)
    (ha : Made K A (.access n d)) (h : Resolves unknown vars n d c) : Made K A c := by
  have lk : ∀ {n c}, vars.lookup n = some c → Made K A c := fun h => hv _ (mem_of_lookup h)
  cases h with
  | var h _ => exact lk h
  | default _ _ => cases ha with | accessD h => exact h
  | unknownEmpty _ _ h => exact hu _ h
  | unknownEmptyDefault _ _ h => exact hu _ h
  | unknown _ h => exact hu _ h

theorem made_params {path : Prompt} {m : Option Method} {v : List (Str × Cmd)} (h : Made K A (.wild path m v)) :
    ∀ x ∈ v, Made K A x.2 := by
  cases h with
  | named _ h _ => exact h
  | path _ h _ => exact h

theorem made_parsesAll (h : MadeEnv E K A) {vs : List Str} {cs : List Cmd} (hp : ParsesAll E vs cs)
    (hv : ∀ v ∈ vs, Over K v) : ∀ c ∈ cs, Made K A c := by
  induction hp with
  | nil => simp
  | cons hp _ ih =>
    intro c hc
    rcases List.mem_cons.1 hc with rfl | hc
    · exact h.parse _ _ (hv _ (by simp)) hp
    · exact ih (fun v hm => hv v (by simp [hm])) c hc

section
variable (h : MadeEnv E K A) (hsp : K ' ') (hu : ∀ u, E.unknown = some u → Made K A u)
  (hw : ∀ p, Over K p → Over K (E.toWildcard p))
include h hsp hu hw

theorem lang_over {vars : List (Str × Cmd)} {c : Cmd} {s : Str} (hl : Lang E vars c s) :
    (∀ b ∈ vars, Made K A b.2) → Made K A c → Over K s := by
  have app : ∀ {l m : List (Str × Cmd)}, (∀ b ∈ l, Made K A b.2) → (∀ b ∈ m, Made K A b.2) →
      ∀ b ∈ l ++ m, Made K A b.2 := fun h1 h2 b hb => (List.mem_append.1 hb).elim (h1 b) (h2 b)
  refine Lang.rec (E := E)
    (motive_1 := fun vars c s _ => (∀ b ∈ vars, Made K A b.2) → Made K A c → Over K s)
    (motive_2 := fun vars cs strs _ => (∀ b ∈ vars, Made K A b.2) → (∀ c ∈ cs, Made K A c) → ∀ s ∈ strs, Over K s)
    (motive_3 := fun vars p s _ => (∀ b ∈ vars, Made K A b.2) → (∀ t, p = .inl t → Over K t) →
      (∀ c, p = .inr c → Made K A c) → Over K s)
    (motive_4 := fun vars toks toks' new _ => (∀ b ∈ vars, Made K A b.2) → (∀ c ∈ toks, Made K A c) →
      (∀ c ∈ toks', Made K A c) ∧ ∀ b ∈ new, Made K A b.2)
    (motive_5 := fun vars n v i o c _ => (∀ b ∈ vars, Made K A b.2) → Made K A v → Made K A c)
    (motive_6 := fun _ _ _ => True)
    ?_ ?_ ?_ ?_ ?_ ?_ ?_ ?_ ?_ ?_ ?_ ?_ ?_ ?_ ?_ ?_ ?_ ?_ ?_ ?_ ?_ ?_ ?_ ?_ ?_ ?_ ?_ ?_ ?_ ?_ hl
  · intro vars s m _ hc
    cases hc with | lit h _ => exact h
  · intro vars toks sep m toks' new strs _ _ iha ihl hv hc
    cases hc with
    | seq ht hs _ =>
      have ⟨h1, h2⟩ := iha hv ht
      exact over_joined hs (ihl (app h2 hv) h1)
  · intro vars toks sep m toks' new strs _ _ iha ihl hv hc
    cases hc with
    | seq ht hs _ =>
      have ⟨h1, h2⟩ := iha hv ht
      have h3 := ihl (app h2 hv) h1
      refine over_joined hs ?_
      intro x hx
      simp only [List.cons_append, List.mem_cons, List.mem_append, List.not_mem_nil, or_false] at hx
      rcases hx with rfl | hx | rfl
      · exact .nil
      · exact h3 x hx
      · exact .nil
  · intro vars opts lo hi sep m cs strs _ _ hsub _ _ ihl hv hc
    cases hc with
    | variant ho hs _ =>
      refine over_joined hs (ihl hv fun c hc => ?_)
      obtain ⟨o, hm, rfl⟩ := List.mem_map.1 (hsub.subset hc)
      exact ho o hm
  · intro vars c wt lo hi sep m s _ _ ih hv hc
    cases hc with
    | variant ho hs _ => exact ih hv (ho _ (List.mem_singleton.2 rfl))
  · intro vars opts lo hi sep m pre d post strs _ _ hsub _ _ _ ihl _ hv hc
    cases hc with
    | variant ho hs _ =>
      refine over_joined hs (ihl hv fun c hc => ?_)
      obtain ⟨o, hm, rfl⟩ := List.mem_map.1 (hsub.subset (List.mem_append_left _ hc))
      exact ho o hm
  · intro vars path m' v wt lo hi sep m wc items cs s _ hvals hps _ _ ihl hv hc
    cases hc with
    | variant ho hs hm =>
      have hwild := ho _ (List.mem_singleton.2 rfl)
      refine ihl hv (.variant ?_ hs ?_)
      · intro o hm
        obtain ⟨c, hc, rfl⟩ := List.mem_map.1 hm
        refine made_parsesAll h hps ?_ c hc
        intro v hv
        obtain ⟨i, hi, rfl⟩ := mem_iterateWeighted hv
        exact h.values _ _ hvals i hi
      · intro x hx
        exact made_method hwild hx
  · intro vars path m v wc items item s _ hvals hi _ _ ihl hv hc
    exact ihl (app (made_params hc) hv) (fun s e => by cases e; exact h.values _ _ hvals _ hi) (fun c e => by cases e)
  · intro vars p m v wc _ _ _ hv hc
    cases hc with
    | named hp _ _ => exact hw _ hp
  · intro vars c m v wc wc' _ _ _ _ ihl hv hc
    cases hc with
    | path hp hvv _ => exact hw _ (ihl (app hvv hv) (fun s e => by cases e) (fun c e => by cases e; exact hp))
  · intro vars name d c s hr _ ihl hv hc
    exact ihl hv (made_resolves hu hv hc hr)
  · intro vars wr i m w s w' s' _ _ q1 q2 ih1 ih2 hv hc
    cases hc with
    | wrap hw' hi _ =>
      have sq : ∀ {a b}, Squashed E a b → Over K a → Over K b := by
        intro a b q ha
        cases q with
        | same => exact ha
        | squash _ => exact over_squash hsp ha
      exact over_wrapWith (sq q1 (ih1 hv hw')) (sq q2 (ih2 hv hi))
  · intro vars _ _
    simp
  · intro vars c cs s strs _ _ ih1 ih2 hv hc x hx
    rcases List.mem_cons.1 hx with rfl | hx
    · exact ih1 hv (hc _ (by simp))
    · exact ih2 hv (fun c hm => hc c (by simp [hm])) x hx
  · intro vars p c s _ hp _ ih hv ht _
    exact over_if_squash hsp _ (ih hv (h.parse _ _ (ht _ rfl) hp))
  · intro vars c s _ _ ih hv _ hc
    exact over_if_squash hsp _ (ih hv (hc _ rfl))
  · intro vars _ _
    exact ⟨by simp, by simp⟩
  · intro vars c cs toks new _ _ ih hv ht
    have ⟨h1, h2⟩ := ih hv (fun c hm => ht c (by simp [hm]))
    refine ⟨?_, h2⟩
    intro c hc
    rcases List.mem_cons.1 hc with rfl | hc
    · exact ht _ (by simp)
    · exact h1 c hc
  · intro vars n v i o cs toks new c _ _ ih1 ih2 hv ht
    have ⟨h1, h2⟩ := ih2 hv (fun c hm => ht c (by simp [hm]))
    refine ⟨h1, app h2 ?_⟩
    intro b hb
    rw [List.mem_singleton.1 hb]
    have := ht _ (List.mem_cons_self ..)
    cases this with
    | assign hc => exact ih1 hv hc
  · intro vars n v i c hl hv _
    exact hv _ (mem_of_lookup hl)
  · intro vars n v o _ _ hc
    exact hc
  · intro vars n s m o _ _ hc
    exact hc
  · intro vars n v o s _ _ ih hv hc
    exact .lit (ih hv hc) (by simp)
  all_goals intros; trivial

theorem langPrompt_over {vars : List (Str × Cmd)} {p : Prompt} {s : Str} (hl : LangPrompt E vars p s)
    (hv : ∀ b ∈ vars, Made K A b.2) (ht : ∀ t, p = .inl t → Over K t) (hc : ∀ c, p = .inr c → Made K A c) :
    Over K s := by
  cases hl with
  | text _ hp hl => exact over_if_squash hsp _ (lang_over h hsp hu hw hl hv (h.parse _ _ (ht _ rfl) hp))
  | cmd _ hl => exact over_if_squash hsp _ (lang_over h hsp hu hw hl hv (hc _ rfl))

end

end Verif
