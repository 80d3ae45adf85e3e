import Verif.Props.Owner

/-! # Property C104: services that learn to understand more -/

namespace Verif
open Spec Chain Reduce EndToEnd Fixtures
open Builder (Op)

variable {S A S' A' : Type}

/-- The second semantics understands whatever the first does, as the same (views may be of other types), and enables whatever the first enables. -/
structure Spec.Refines (D : Deps) (sem : Semantics S A) (sem' : Semantics S' A') (φ : View S A → View S' A') : Prop where
  reads : ∀ c v, sem.parseCapability D c = some v → sem'.parseCapability D c = some (φ v)
  enables : ∀ v w, sem.enables v w = true → sem'.enables (φ v) (φ w) = true

namespace Upgrade

theorem claimed {D : Deps} {sem : Semantics S A} {sem' : Semantics S' A'} {φ : View S A → View S' A'} (h : Refines D sem sem' φ) {u : Ucan} {v : View S A}
    (hv : Claimed D sem u v) : Claimed D sem' u (φ v) := by
  obtain ⟨pre, c, post, he, hp, hc⟩ := hv
  refine ⟨pre, c, post, he, fun x hx => ?_, h.reads c v hc⟩
  obtain ⟨y, hy⟩ := Option.ne_none_iff_exists'.1 (hp x hx)
  rw [h.reads x y hy]
  exact fun e => nomatch e

end Upgrade

/-- C104: whatever a token offers, it offers to the service that understands more. -/
theorem C104_offers (D : Deps) (sem : Semantics S A) (sem' : Semantics S' A') (φ : View S A → View S' A') (h : Refines D sem sem' φ) (c : Chain) (v : View S A)
    (hv : Offers D sem c v) : Offers D sem' c (φ v) := by
  induction hv with
  | claim h1 => exact .claim (Upgrade.claimed h h1)
  | redelegated k hk hp _ ih => exact .redelegated k hk hp ih

/-- C104: and whatever was reported is covered by what is reported then. -/
theorem C104_covered (D : Deps) (sem : Semantics S A) (sem' : Semantics S' A') (hl : Lawful sem') (φ : View S A → View S' A') (h : Refines D sem sem' φ) (c : Chain)
    (out : List (Info S A)) (out' : List (Info S' A')) (ho : reduce D sem c = .ok out) (ho' : reduce D sem' c = .ok out') (i : Info S A) (hi : i ∈ out) :
    ∃ i' ∈ out', CoveredBy sem' i'.capability (φ i.capability) ∧ i'.notBefore = i.notBefore ∧ i'.expiresAt = i.expiresAt := by
  obtain ⟨i', hi', hcov⟩ := C33_offered_covered D sem' hl c out' ho' _ (C104_offers D sem sem' φ h c _ (C28_offered D sem c out ho i hi))
  obtain ⟨h1, h2⟩ := C29_lifetime D sem c out ho i hi
  obtain ⟨h3, h4⟩ := C29_lifetime D sem' c out' ho' i' hi'
  exact ⟨i', hi', hcov, h3.trans h1.symm, h4.trans h2.symm⟩

/-- C104 (partial): whoever granted something still does, unless at a token of theirs a claim that nothing enabled is now understood to be enabled by a
proof. The full claim is refuted by `C104_disowned`. -/
theorem C104_grantors_partial (D : Deps) (sem : Semantics S A) (sem' : Semantics S' A') (φ : View S A → View S' A') (h : Refines D sem sem' φ) :
    ∀ (c : Chain) (v : View S A) (o : String), Granted D sem c v o → Granted D sem' c (φ v) o ∨
      ∃ d, Sub d c ∧ d.ucan.payload.iss = o ∧ ∃ x, Claimed D sem d.ucan x ∧ ¬ Anticipated D sem d x ∧ Anticipated D sem' d (φ x) := by
  intro c
  induction c using Chain.indAux with
  | h u ps r ih =>
    intro v o hg
    rw [granted_iff] at hg
    have up : ∀ p ∈ ps, (∃ d, Sub d p ∧ d.ucan.payload.iss = o ∧ ∃ x, Claimed D sem d.ucan x ∧ ¬ Anticipated D sem d x ∧ Anticipated D sem' d (φ x)) →
        ∃ d, Sub d (.mk u ps r) ∧ d.ucan.payload.iss = o ∧ ∃ x, Claimed D sem d.ucan x ∧ ¬ Anticipated D sem d x ∧ Anticipated D sem' d (φ x) := by
      rintro p hp ⟨d, hd, h1⟩
      exact ⟨d, .proof hp hd, h1⟩
    rcases hg with ⟨hcl, ⟨k, p, v', hp, hk, hg, he⟩ | ⟨rfl, hno⟩⟩ | ⟨k, p, hk, hp, hg⟩
    · rcases ih p (mem_of_getElem?' hp) v' o hg with h1 | h1
      · refine .inl ?_
        rw [granted_iff]
        exact .inl ⟨Upgrade.claimed h hcl, .inl ⟨k, p, _, hp, hk, h1, h.enables _ _ he⟩⟩
      · exact .inr (up p (mem_of_getElem?' hp) h1)
    · by_cases ha : Anticipated D sem' (.mk u ps r) (φ v)
      · refine .inr ⟨_, .self _, rfl, v, hcl, ?_, ha⟩
        rintro ⟨k, p, v', hp, hk, ho, he⟩
        obtain ⟨o', hg'⟩ := offers_granted D sem ho
        exact hno ⟨o', k, p, v', hp, hk, hg', he⟩
      · refine .inl ?_
        rw [granted_iff]
        refine .inl ⟨Upgrade.claimed h hcl, .inr ⟨rfl, ?_⟩⟩
        rintro ⟨o', k, p, v', hp, hk, hg', he⟩
        exact ha ⟨k, p, v', hp, hk, granted_offers D sem' p v' o' hg', he⟩
    · rcases ih p (mem_of_getElem?' hp) v o hg with h1 | h1
      · refine .inl ?_
        rw [granted_iff]
        exact .inr ⟨k, p, hk, hp, h1⟩
      · exact .inr (up p (mem_of_getElem?' hp) h1)

/-- C104 is violated: a service that does not understand what A claims names B for what B claims. Once it does, and understands that it enables B's
claim, it names A, and B no longer. -/
theorem C104_disowned (D : Deps) (hD : ShortDigests D) (sem : Semantics S A) (sem' : Semantics S' A') (E : Env) (g : Nat) (l : Nat → List Store.Op) (hE : Served D E g l)
    (hl : ∀ i j, i ≤ j → l i <:+ l j) (hn : ∀ i, NoCollision D g (l i)) (w : World) (hc : Coherent w.parser) (kA kB : Key) (a b z : String)
    (ha : kA.did = .ok a) (hb : kB.did = .ok b) (c d : Capability) (v : View S A) (x y : View S' A') (hx : sem.parseCapability D c = none)
    (hv : sem.parseCapability D d = some v) (hx' : sem'.parseCapability D c = some x) (hy : sem'.parseCapability D d = some y) (hen : sem'.enables x y = true)
    (hc' : ∀ i, ¬ Redelegates D c i) (hd' : ∀ i, ¬ Redelegates D d i) (e f : UInt64) (hef : f ≤ e) (uA uB : Ucan)
    (hA : SignedBy D w.parser.ctors (grantCalls kA b e c) uA) (hB : SignedBy D w.parser.ctors (citeCalls kB z f d uA) uB)
    (hstored : Written g (strBytes (uA.encode D)) (l w.tick)) (hclock : ∀ i, E.clock i ≤ f) :
    ∃ ch w', (∃ N, ∀ fuel, N ≤ fuel → ofToken D E none fuel (uB.encode D) w = (.ok ch, w')) ∧
      reduce D sem ch = .ok [⟨[b], none, some f, v⟩] ∧ reduce D sem' ch = .ok [⟨[a], none, some f, y⟩] := by
  obtain ⟨w', h1, h2, h3, capA, capB, hnb, hex⟩ := Owner.cited hD hE hl hn w hc ha hb hc' hd' hef hA hB hstored hclock
  refine ⟨_, w', h1, ?_, ?_⟩
  · rw [Owner.reduce_unread capA capB hx hv, h3, hnb, hex]
  · rw [Owner.reduce_cited capA capB hx' hy hen, h2, hnb, hex]

namespace Ex

/-- The mail semantics before it learnt about wildcards. -/
def oldMail (D : Deps) : Semantics EmailAddress EmailAction :=
  { emailSemantics with overridden := some fun c => if c.resource = "mailto:*" then none else emailSemantics.parseCapability D c }

/-- Beside C104: the mail semantics refines it. -/
theorem oldMail_refines (D : Deps) : Refines D (oldMail D) emailSemantics id := by
  refine ⟨fun c v h => ?_, fun v w h => h⟩
  change (if c.resource = "mailto:*" then none else emailSemantics.parseCapability D c) = some v at h
  split at h
  · cases h
  · exact h

/-- Beside `C104_disowned`: key 2 is named as long as wildcards are not understood. -/
example (D : Deps) (hD : ShortDigests D) : ∃ (a b : String) (E : Env) (w w' : World) (t : String) (fuel : Nat) (ch : Chain), a ≠ b ∧
    ofToken D E none fuel t w = (.ok ch, w') ∧ reduce D (oldMail D) ch = .ok [⟨[b], none, some 10, viewOne⟩] ∧
    reduce D emailSemantics ch = .ok [⟨[a], none, some 10, viewOne⟩] := by
  obtain ⟨a, _, ha, _⟩ := toy_denotes 1
  obtain ⟨b, _, hb, _⟩ := toy_denotes 2
  have hab : a ≠ b := by
    have h1 : (toyKey 1).did ≠ (toyKey 2).did := by decide +kernel
    rintro rfl
    exact h1 (ha.trans hb.symm)
  obtain ⟨uA, hA⟩ := toy_grant D b sendAll (Or.inr rfl)
  obtain ⟨uB, hB⟩ := toy_cite D uA
  obtain ⟨ch, w', ⟨N, h1⟩, h2, h3⟩ := C104_disowned D hD (oldMail D) emailSemantics (env1 D uA) 0 (fun _ => log1 D uA) (fun _ _ => rfl)
    (fun _ _ _ => List.suffix_refl _) (fun _ b b' hb hb' _ => (written_one hb).trans (written_one hb').symm) ⟨0, ⟨toyCtors, []⟩⟩ (DidParser.coherent_fresh _)
    (toyKey 1) (toyKey 2) a b "did:key:z3" ha hb sendAll sendOne viewOne viewAll viewOne rfl rfl (sendAll_view D) (sendOne_view D) (by decide)
    (one_not_redelegating D _ (Or.inr rfl)) (one_not_redelegating D _ (Or.inl rfl)) 20 10 (by decide) uA uB hA hB (.here 0 rfl) clock_le
  exact ⟨a, b, _, _, w', _, N, ch, hab, h1 N (Nat.le_refl _), h2, h3⟩

end Ex
end Verif
