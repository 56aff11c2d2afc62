import Verif.Expr.Model

/-!
# Soundness and completeness of matching
-/

namespace Verif

theorem headMatch_iff (o o' : Op) : headMatch o o' = true ↔ o.strip = o'.strip := by
  cases o <;> cases o' <;> simp [headMatch, Op.strip]

theorem lookup_cons_self (n : Nat) (e : Expr) (s : Subst) :
    List.lookup n ((n, e) :: s) = some e := by simp

theorem lookup_cons_of_some {n m : Nat} {e v : Expr} {s : Subst} (h0 : s.lookup n = none)
    (h : s.lookup m = some v) : List.lookup m ((n, e) :: s) = some v := by
  have : m ≠ n := by rintro rfl; simp [h0] at h
  rw [List.lookup_cons, beq_eq_false_iff_ne.2 this]; exact h

/-- Extending a substitution keeps instances. -/
def Ext (s s' : Subst) : Prop := ∀ n v, s.lookup n = some v → s'.lookup n = some v

mutual
theorem Inst.mono {σ τ : Nat → Option Expr} (h : ∀ n v, σ n = some v → τ n = some v) :
    ∀ {p e}, Inst σ p e → Inst τ p e
  | _, _, .lv hn => .lv (h _ _ hn)
  | _, _, .gnd => .gnd
  | _, _, .app ho ha => .app ho (InstArgs.mono h ha)
theorem InstArgs.mono {σ τ : Nat → Option Expr} (h : ∀ n v, σ n = some v → τ n = some v) :
    ∀ {p e}, InstArgs σ p e → InstArgs τ p e
  | _, _, .nil => .nil
  | _, _, .cons hp ha => .cons (Inst.mono h hp) (InstArgs.mono h ha)
end

mutual
theorem matchP_sound : ∀ (p : Pat) (e : Expr) (s s' : Subst), matchP p e s = some s' →
    Ext s s' ∧ Inst (fun n => s'.lookup n) p e
  | .lv n, e, s, s', h => by
    unfold matchP at h
    split at h
    · rename_i h0
      cases h
      exact ⟨fun m v hm => lookup_cons_of_some h0 hm, .lv (lookup_cons_self n e s)⟩
    · rename_i e' h0
      split at h
      · rename_i he
        cases h
        exact ⟨fun m v hm => hm, .lv (by rw [he]; exact h0)⟩
      · cases h
  | .gnd e', e, s, s', h => by
    unfold matchP at h
    split at h
    · rename_i he
      cases h
      subst he
      exact ⟨fun m v hm => hm, .gnd⟩
    · cases h
  | .app o ps, .app o' sh as, s, s', h => by
    unfold matchP at h
    split at h
    · rename_i ho
      have := matchArgs_sound ps as s s' h
      exact ⟨this.1, .app ((headMatch_iff _ _).1 ho) this.2⟩
    · cases h
  | .app _ _, .input _ _, s, s', h => by simp [matchP] at h
  | .app _ _, .const _ _, s, s', h => by simp [matchP] at h
theorem matchArgs_sound : ∀ (ps : List Pat) (es : List Expr) (s s' : Subst),
    matchArgs ps es s = some s' → Ext s s' ∧ InstArgs (fun n => s'.lookup n) ps es
  | [], [], s, s', h => by
    simp [matchArgs] at h
    subst h
    exact ⟨fun m v hm => hm, .nil⟩
  | p :: ps, e :: es, s, s', h => by
    unfold matchArgs at h
    split at h
    · rename_i s1 h1
      have a := matchP_sound p e s s1 h1
      have b := matchArgs_sound ps es s1 s' h
      exact ⟨fun m v hm => b.1 m v (a.1 m v hm), .cons (a.2.mono b.1) b.2⟩
    · cases h
  | [], _ :: _, s, s', h => by simp [matchArgs] at h
  | _ :: _, [], s, s', h => by simp [matchArgs] at h
end

mutual
theorem matchP_complete {σ : Nat → Option Expr} : ∀ (p : Pat) (e : Expr) (s : Subst),
    (∀ n v, s.lookup n = some v → σ n = some v) → Inst σ p e →
    ∃ s', matchP p e s = some s' ∧ ∀ n v, s'.lookup n = some v → σ n = some v
  | .lv n, e, s, hs, h => by
    cases h with
    | lv hn =>
      unfold matchP
      cases h0 : s.lookup n with
      | none =>
        refine ⟨_, rfl, fun m v hm => ?_⟩
        rw [List.lookup_cons] at hm
        by_cases hmn : m = n
        · subst hmn; simp at hm; rw [← hm]; exact hn
        · have : (m == n) = false := by simpa using hmn
          rw [this] at hm; exact hs m v hm
      | some e' =>
        have := hs n e' h0
        rw [hn] at this
        cases this
        simp only [if_true]
        exact ⟨s, rfl, hs⟩
  | .gnd e', e, s, hs, h => by
    cases h with
    | gnd => unfold matchP; simp only [if_true]; exact ⟨s, rfl, hs⟩
  | .app o ps, e, s, hs, h => by
    cases h with
    | app ho ha =>
      unfold matchP
      rw [if_pos ((headMatch_iff _ _).2 ho)]
      exact matchArgs_complete ps _ s hs ha
theorem matchArgs_complete {σ : Nat → Option Expr} : ∀ (ps : List Pat) (es : List Expr) (s : Subst),
    (∀ n v, s.lookup n = some v → σ n = some v) → InstArgs σ ps es →
    ∃ s', matchArgs ps es s = some s' ∧ ∀ n v, s'.lookup n = some v → σ n = some v
  | [], _, s, hs, h => by
    cases h with
    | nil => exact ⟨s, by simp [matchArgs], hs⟩
  | p :: ps, _, s, hs, h => by
    cases h with
    | cons hp ha =>
      obtain ⟨s1, h1, hs1⟩ := matchP_complete p _ s hs hp
      obtain ⟨s2, h2, hs2⟩ := matchArgs_complete ps _ s1 hs1 ha
      exact ⟨s2, by simp [matchArgs, h1, h2], hs2⟩
end

end Verif
