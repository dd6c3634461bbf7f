import Verif.Model.Command
/-! Induction over commands. -/

namespace Verif

mutual
/-- Induction over commands with one hypothesis per member of a list. -/
theorem Cmd.ind {P : Cmd → Prop} (lit : ∀ s m, P (.lit s m))
    (seq : ∀ toks sep m, (∀ c ∈ toks, P c) → P (.seq toks sep m))
    (variant : ∀ opts lo hi sep m, (∀ o ∈ opts, P o.1) → P (.variant opts lo hi sep m))
    (wildS : ∀ p m v, (∀ x ∈ v, P x.2) → P (.wild (.inl p) m v))
    (wildC : ∀ p m v, P p → (∀ x ∈ v, P x.2) → P (.wild (.inr p) m v))
    (assign : ∀ n v i o, P v → P (.assign n v i o))
    (accessN : ∀ n, P (.access n none)) (accessS : ∀ n d, P d → P (.access n (some d)))
    (wrap : ∀ w i m, P w → P i → P (.wrap w i m)) : ∀ c, P c
  | .lit s m => lit s m
  | .seq toks sep m =>
      seq toks sep m (Cmd.indL lit seq variant wildS wildC assign accessN accessS wrap toks)
  | .variant opts lo hi sep m =>
      variant opts lo hi sep m (Cmd.indO lit seq variant wildS wildC assign accessN accessS wrap opts)
  | .wild (.inl p) m v =>
      wildS p m v (Cmd.indV lit seq variant wildS wildC assign accessN accessS wrap v)
  | .wild (.inr p) m v =>
      wildC p m v (Cmd.ind lit seq variant wildS wildC assign accessN accessS wrap p)
        (Cmd.indV lit seq variant wildS wildC assign accessN accessS wrap v)
  | .assign n v i o => assign n v i o (Cmd.ind lit seq variant wildS wildC assign accessN accessS wrap v)
  | .access n none => accessN n
  | .access n (some d) => accessS n d (Cmd.ind lit seq variant wildS wildC assign accessN accessS wrap d)
  | .wrap w i m => wrap w i m (Cmd.ind lit seq variant wildS wildC assign accessN accessS wrap w)
      (Cmd.ind lit seq variant wildS wildC assign accessN accessS wrap i)
theorem Cmd.indL {P : Cmd → Prop} (lit : ∀ s m, P (.lit s m))
    (seq : ∀ toks sep m, (∀ c ∈ toks, P c) → P (.seq toks sep m))
    (variant : ∀ opts lo hi sep m, (∀ o ∈ opts, P o.1) → P (.variant opts lo hi sep m))
    (wildS : ∀ p m v, (∀ x ∈ v, P x.2) → P (.wild (.inl p) m v))
    (wildC : ∀ p m v, P p → (∀ x ∈ v, P x.2) → P (.wild (.inr p) m v))
    (assign : ∀ n v i o, P v → P (.assign n v i o))
    (accessN : ∀ n, P (.access n none)) (accessS : ∀ n d, P d → P (.access n (some d)))
    (wrap : ∀ w i m, P w → P i → P (.wrap w i m)) : ∀ l : List Cmd, ∀ c ∈ l, P c
  | [], c, h => nomatch h
  | a :: as, c, h => by
      rcases List.mem_cons.1 h with h | h
      · exact h ▸ Cmd.ind lit seq variant wildS wildC assign accessN accessS wrap a
      · exact Cmd.indL lit seq variant wildS wildC assign accessN accessS wrap as c h
theorem Cmd.indO {P : Cmd → Prop} (lit : ∀ s m, P (.lit s m))
    (seq : ∀ toks sep m, (∀ c ∈ toks, P c) → P (.seq toks sep m))
    (variant : ∀ opts lo hi sep m, (∀ o ∈ opts, P o.1) → P (.variant opts lo hi sep m))
    (wildS : ∀ p m v, (∀ x ∈ v, P x.2) → P (.wild (.inl p) m v))
    (wildC : ∀ p m v, P p → (∀ x ∈ v, P x.2) → P (.wild (.inr p) m v))
    (assign : ∀ n v i o, P v → P (.assign n v i o))
    (accessN : ∀ n, P (.access n none)) (accessS : ∀ n d, P d → P (.access n (some d)))
    (wrap : ∀ w i m, P w → P i → P (.wrap w i m)) : ∀ l : List (Cmd × Rat), ∀ o ∈ l, P o.1
  | [], c, h => nomatch h
  | (a, x) :: as, c, h => by
      rcases List.mem_cons.1 h with h | h
      · exact h ▸ Cmd.ind lit seq variant wildS wildC assign accessN accessS wrap a
      · exact Cmd.indO lit seq variant wildS wildC assign accessN accessS wrap as c h
theorem Cmd.indV {P : Cmd → Prop} (lit : ∀ s m, P (.lit s m))
    (seq : ∀ toks sep m, (∀ c ∈ toks, P c) → P (.seq toks sep m))
    (variant : ∀ opts lo hi sep m, (∀ o ∈ opts, P o.1) → P (.variant opts lo hi sep m))
    (wildS : ∀ p m v, (∀ x ∈ v, P x.2) → P (.wild (.inl p) m v))
    (wildC : ∀ p m v, P p → (∀ x ∈ v, P x.2) → P (.wild (.inr p) m v))
    (assign : ∀ n v i o, P v → P (.assign n v i o))
    (accessN : ∀ n, P (.access n none)) (accessS : ∀ n d, P d → P (.access n (some d)))
    (wrap : ∀ w i m, P w → P i → P (.wrap w i m)) : ∀ l : List (Str × Cmd), ∀ o ∈ l, P o.2
  | [], c, h => nomatch h
  | (x, a) :: as, c, h => by
      rcases List.mem_cons.1 h with h | h
      · exact h ▸ Cmd.ind lit seq variant wildS wildC assign accessN accessS wrap a
      · exact Cmd.indV lit seq variant wildS wildC assign accessN accessS wrap as c h
end

end Verif
