import Verif.Props.Search
import Verif.Props.TwoCheckers

/-!
# C103: searches with a hash table keyed by `key()`
-/

namespace Yasai.Props

open Yasai Spec

/-! ## The program -/

/-- A hash table with any rule of replacement: what is found was found before or has just been stored
under this key and depth. -/
structure HashTable (τ α : Type) where
  look : τ → BitVec 64 → Nat → Option α
  store : τ → BitVec 64 → Nat → α → τ
  found : ∀ t k d a k' d' b, look (store t k d a) k' d' = some b →
    (k' = k ∧ d' = d ∧ b = a) ∨ look t k' d' = some b

/-- The search of C101 that looks up the key of the position before it searches, and stores the result
afterwards. -/
def hashSearch {τ α : Type} (H : HashTable τ α) (E : Env) (K : Backend) (leaf : Position → Option α)
    (fold : List α → α) : Nat → Position → τ → Option (α × Position × τ)
  | 0, p, t => do
    let k ← p.key
    match H.look t k 0 with
    | some a => pure (a, p, t)
    | none =>
      let a ← leaf p
      pure (a, p, H.store t k 0 a)
  | d + 1, p, t => do
    let k ← p.key
    match H.look t k (d + 1) with
    | some a => pure (a, p, t)
    | none =>
      let ms ← p.legalMoves E K
      let (as, q, t) ← ms.foldlM (fun (acc : List α × Position × τ) m => do
        let q ← acc.2.1.doMove E K m
        let (a, q, t) ← hashSearch H E K leaf fold d q acc.2.2
        let q ← q.undoMove E K m
        pure (acc.1 ++ [a], q, t)) ([], p, t)
      pure (fold as, q, H.store t k (d + 1) (fold as))

/-- No two different positions within `d` moves of the position reached by `ms` have the same key. -/
def NoClash (E : Env) (K : Backend) (pp : CorePartialPosition) (ms : List Move) (d : Nat) : Prop :=
  ∀ xs ys q q', xs.length ≤ d → ys.length ≤ d → Reached E K pp (xs ++ ms) q →
    Reached E K pp (ys ++ ms) q' → q.key = q'.key → view q = view q'

/-! ## The table holds right values -/

/-- Every entry under the key of a position within `d` moves is right for this position. -/
def Trusty {τ α : Type} (H : HashTable τ α) (E : Env) (K : Backend) (pp : CorePartialPosition)
    (ms : List Move) (D : Nat) (leafS : Pos → α → Prop) (fold : List α → α) (t : τ) : Prop :=
  ∀ xs q k d a, xs.length ≤ D → Reached E K pp (xs ++ ms) q → q.key = some k →
    H.look t k d = some a → Value leafS fold d (view q) a

theorem Trusty.store {τ α : Type} {H : HashTable τ α} {E : Env} {K : Backend}
    {pp : CorePartialPosition} {ms : List Move} {D : Nat} {leafS : Pos → α → Prop}
    {fold : List α → α} {t : τ} (h : Trusty H E K pp ms D leafS fold t)
    (hc : NoClash E K pp ms D) {xs : List Move} {p : Position} {k : BitVec 64} {d : Nat} {a : α}
    (hx : xs.length ≤ D) (hp : Reached E K pp (xs ++ ms) p) (hk : p.key = some k)
    (ha : Value leafS fold d (view p) a) : Trusty H E K pp ms D leafS fold (H.store t k d a) := by
  intro ys q k' d' b hy hq hk' hb
  rcases H.found t k d a k' d' b hb with ⟨rfl, rfl, rfl⟩ | hb
  · rw [hc ys xs q p hy hx hq hp (hk'.trans hk.symm)]
    exact ha
  · exact h ys q k' d' b hy hq hk' hb

theorem hash_fold {τ α : Type} {E : Env} {K : Backend} {p : Position}
    {rec : Position → τ → Option (α × Position × τ)} {R : Move → α → Prop} {G : τ → Prop} :
    ∀ {l : List Move}, (∀ m ∈ l, ∀ t, G t → ∃ p' a t', p.doMove E K m = some p' ∧
        rec p' t = some (a, p', t') ∧ p'.undoMove E K m = some p ∧ R m a ∧ G t') →
      ∀ (acc : List α) (t : τ), G t →
      ∃ (rs : List (Move × α)) (t' : τ), rs.map Prod.fst = l ∧ (∀ x ∈ rs, R x.1 x.2) ∧ G t' ∧
        l.foldlM (fun (acc : List α × Position × τ) m => do
          let q ← acc.2.1.doMove E K m
          let (a, q, t) ← rec q acc.2.2
          let q ← q.undoMove E K m
          pure (acc.1 ++ [a], q, t)) (acc, p, t) = some (acc ++ rs.map Prod.snd, p, t') := by
  intro l
  induction l with
  | nil =>
    intro _ acc t ht
    exact ⟨[], t, rfl, fun x hx => (by cases hx), ht, by simp⟩
  | cons m l ih =>
    intro h acc t ht
    obtain ⟨p', a, t', h1, h2, h3, h4, h5⟩ := h m List.mem_cons_self t ht
    obtain ⟨rs, t'', e, hr, hg, hf⟩ :=
      ih (fun m hm => h m (List.mem_cons_of_mem _ hm)) (acc ++ [a]) t' h5
    refine ⟨(m, a) :: rs, t'', by rw [List.map_cons, e], ?_, hg, ?_⟩
    · intro x hx
      rcases List.mem_cons.1 hx with rfl | hx
      · exact h4
      · exact hr x hx
    · rw [List.foldlM_cons]
      simp only [h1, h2, h3, Option.bind_eq_bind, Option.bind_some, Option.pure_def]
      simp only [Option.bind_eq_bind, Option.pure_def] at hf
      rw [hf]
      simp

theorem hash_right {τ α : Type} (H : HashTable τ α) (E : Env) (K : Backend) (hK : K ∈ backends)
    (pp : CorePartialPosition) (hst : Standard (rootView pp)) (leaf : Position → Option α)
    (leafS : Pos → α → Prop) (fold : List α → α)
    (hleaf : ∀ ms p, Reached E K pp ms p → ∃ a, leaf p = some a ∧ leafS (view p) a)
    (ms : List Move) (D : Nat) (hc : NoClash E K pp ms D) (d : Nat) :
    ∀ (xs : List Move) (p : Position) (t : τ), xs.length + d ≤ D → Reached E K pp (xs ++ ms) p →
      (E.overflowChecks = true → p.ply.toNat + d ≤ 65535) →
      Trusty H E K pp ms D leafS fold t →
      ∃ a t', hashSearch H E K leaf fold d p t = some (a, p, t') ∧
        Value leafS fold d (view p) a ∧ Trusty H E K pp ms D leafS fold t' := by
  induction d with
  | zero =>
    intro xs p t hx h _ ht
    obtain ⟨_, _, ⟨k, hk⟩, _⟩ := C21_calls_return E K hK pp hst _ p h
    unfold hashSearch
    simp only [hk, Option.bind_eq_bind, Option.bind_some, Option.pure_def]
    cases hl : H.look t k 0 with
    | some a => exact ⟨a, t, rfl, ht xs p k 0 a (by omega) h hk hl, ht⟩
    | none =>
      obtain ⟨a, ha, hs⟩ := hleaf _ p h
      simp only [ha, Option.bind_some]
      exact ⟨a, _, rfl, hs, ht.store hc (by omega) h hk hs⟩
  | succ d ih =>
    intro xs p t hx h hply ht
    obtain ⟨_, _, ⟨k, hk⟩, _, _, hdo, _⟩ := C21_calls_return E K hK pp hst _ p h
    unfold hashSearch
    simp only [hk, Option.bind_eq_bind, Option.bind_some, Option.pure_def]
    cases hlk : H.look t k (d + 1) with
    | some a => exact ⟨a, t, rfl, ht xs p k (d + 1) a (by omega) h hk hlk, ht⟩
    | none =>
      obtain ⟨l, hl, _⟩ := C22_legal_moves_total E K hK pp hst _ p h
      obtain ⟨hn, hm⟩ := legalMoves_exact hK hst.valid h hl
      obtain ⟨rs, t', e, hr, hg, hf⟩ := hash_fold (E := E) (K := K) (p := p)
        (rec := hashSearch H E K leaf fold d)
        (R := fun m a => Value leafS fold d (apply (view p) m) a)
        (G := Trusty H E K pp ms D leafS fold) (l := l) (fun m hmem t ht => by
          have hleg := (hm m).1 hmem
          obtain ⟨p', hp'⟩ := hdo m ⟨l, hl, hmem⟩ (by
            intro hE e
            have := hply hE
            rw [e] at this
            have e2 : (65535#16).toNat = 65535 := rfl
            omega)
          have hr := h.move hleg hp'
          obtain ⟨a, t', ha, hv, ht'⟩ := ih (m :: xs) p' t (by simp only [List.length_cons]; omega) hr
            (fun hE => by
              have h1 := reached_ply hK hr hE
              have h2 := reached_ply hK h hE
              have h3 := hply hE
              simp only [List.length_cons] at h1
              omega) ht
          rw [(C03_do_move_is_rules E K _ _ _ hp').1] at hv
          exact ⟨p', a, t', hp', ha,
            C01_undo_inverts_do E K hK _ _ _ (shape_drops (shape_of_legal hleg)) hp', hv, ht'⟩) [] t ht
      have hv : Value leafS fold (d + 1) (view p) (fold (rs.map Prod.snd)) :=
        ⟨rs, e ▸ hn, e ▸ hm, hr, rfl⟩
      refine ⟨fold (rs.map Prod.snd), H.store t' k (d + 1) (fold (rs.map Prod.snd)), ?_, hv,
        hg.store hc (by omega) h hk hv⟩
      simp only [Option.bind_eq_bind, Option.pure_def] at hf
      simp only [hl, Option.bind_some]
      rw [hf]
      simp

/-! ## C103 -/

/-- C103.  A search with a hash table keyed by `key()`, with any rule of replacement, started with an empty
table in any position of a game: as long as no two different positions within its reach have the same
key, it does not panic, leaves the position as it was, and returns a value that the rules give. -/
theorem C103_hash_search {τ α : Type} (H : HashTable τ α) (E : Env) (K : Backend) (hK : K ∈ backends)
    (pp : CorePartialPosition) (hst : Standard (rootView pp)) (leaf : Position → Option α)
    (leafS : Pos → α → Prop) (fold : List α → α)
    (hleaf : ∀ ms p, Reached E K pp ms p → ∃ a, leaf p = some a ∧ leafS (view p) a)
    (d : Nat) (ms : List Move) (p : Position) (h : Reached E K pp ms p)
    (hc : NoClash E K pp ms d) (hply : E.overflowChecks = true → p.ply.toNat + d ≤ 65535)
    (t : τ) (hempty : ∀ k d, H.look t k d = none) :
    ∃ a t', hashSearch H E K leaf fold d p t = some (a, p, t') ∧ Value leafS fold d (view p) a := by
  obtain ⟨a, t', h1, h2, _⟩ := hash_right H E K hK pp hst leaf leafS fold hleaf ms d hc d [] p t
    (by simp) h hply (fun xs q k d a _ _ _ hl => by rw [hempty] at hl; cases hl)
  exact ⟨a, t', h1, h2⟩

/-- C103.  In particular it agrees with the search without a table, if the order of the results does not
matter. -/
theorem C103_same_as_plain {τ α : Type} (H : HashTable τ α) (E : Env) (K : Backend)
    (hK : K ∈ backends) (pp : CorePartialPosition) (hst : Standard (rootView pp))
    (leaf : Position → Option α) (leafS : Pos → α) (fold : List α → α)
    (hleaf : ∀ ms p, Reached E K pp ms p → leaf p = some (leafS (view p)))
    (hfold : ∀ l l' : List α, l.Perm l' → fold l = fold l')
    (d : Nat) (ms : List Move) (p : Position) (h : Reached E K pp ms p)
    (hc : NoClash E K pp ms d) (hply : E.overflowChecks = true → p.ply.toNat + d ≤ 65535)
    (t : τ) (hempty : ∀ k d, H.look t k d = none) :
    ∃ a t', hashSearch H E K leaf fold d p t = some (a, p, t') ∧
      search E K leaf fold d p = some (a, p) := by
  obtain ⟨a, t', h1, h2⟩ := C103_hash_search H E K hK pp hst leaf (fun P a => a = leafS P) fold
    (fun ms p h => ⟨_, hleaf ms p h, rfl⟩) d ms p h hc hply t hempty
  obtain ⟨b, h3, h4⟩ := C101_search E K hK pp hst leaf (fun P a => a = leafS P) fold
    (fun ms p h => ⟨_, hleaf ms p h, rfl⟩) d ms p h hply
  have e : b = a := Value.unique (fun P a b ha hb => ha.trans hb.symm) hfold h4 h2
  exact ⟨a, t', h1, e ▸ h3⟩

/-- C103.  Positions that are the same by the rules are found again: within a game equal positions have
equal keys, whatever their histories. -/
theorem C103_found_again (E : Env) (K : Backend) (hK : K ∈ backends) (pp : CorePartialPosition)
    (ms ms' : List Move) (p p' : Position) (h : Reached E K pp ms p) (h' : Reached E K pp ms' p')
    (e : view p = view p') : p.key = p'.key := by
  obtain ⟨p0, h0, hs⟩ := h
  obtain ⟨p0', h0', hs'⟩ := h'
  refine (C18_transpositions E K hK pp pp p0 p0' p p' ms ms' h0 h0'
    (hs.mono fun _ _ h => shape_of_legal h) (hs'.mono fun _ _ h => shape_of_legal h) rfl
    (fun s => congrFun (congrArg Pos.board e) s) (fun c k => ?_) (congrArg Pos.side e)).2
  have hh : ((p.hand c).count k).getD 0 = ((p'.hand c).count k).getD 0 :=
    congrFun (congrFun (congrArg Pos.hand e) c) k
  unfold Hand.count at hh ⊢
  by_cases hk : k.isHandPiece <;> simp_all

/-! ## Concrete cases -/

section
open Yasai.Examples

/-- A table without limits. -/
def bigTable (α : Type) : HashTable (BitVec 64 → Nat → Option α) α where
  look t k d := t k d
  store t k d a := fun k' d' => if k' = k ∧ d' = d then some a else t k' d'
  found := by
    intro t k d a k' d' b h
    by_cases e : k' = k ∧ d' = d
    · simp only [if_pos e] at h
      exact .inl ⟨e.1, e.2, (Option.some.inj h).symm⟩
    · simp only [if_neg e] at h
      exact .inr h

/-- Numbers that differ. -/
def env1 : Env :=
  ⟨fun s c k => BitVec.ofNat 64 ((2 * (s.val * 28 + c.ctorIdx * 14 + k.ctorIdx) + 2) ^ 5),
    fun _ _ _ => 0#64, true⟩

/-- No two of the ten positions after one move, and the root, have the same key. -/
theorem mateInOne_noClash : NoClash env1 CoreBB.backend mateInOne [] 1 := by
  have h : ((Position.new env1 CoreBB.backend mateInOne).any fun p =>
      (p.legalMoves env1 CoreBB.backend).any fun l =>
        l.all fun m => (p.doMove env1 CoreBB.backend m).bind (·.key) != p.key &&
          l.all fun m' => m == m' || (p.doMove env1 CoreBB.backend m).bind (·.key) !=
            (p.doMove env1 CoreBB.backend m').bind (·.key)) = true := by decide +kernel
  simp only [Option.any_eq_true, List.all_eq_true, Bool.and_eq_true, Bool.or_eq_true, bne_iff_ne,
    beq_iff_eq] at h
  obtain ⟨p, hp, l, hl, hk⟩ := h
  have hre : Reached env1 CoreBB.backend mateInOne [] p := ⟨p, hp, .start⟩
  have hroot : ∀ q, Reached env1 CoreBB.backend mateInOne [] q → q = p := by
    rintro q ⟨p0, h0, hs⟩
    have e : p = p0 := Option.some.inj (hp.symm.trans h0)
    have hs := hs.play core_mem (fun _ _ h => shape_of_legal h)
    cases hs
    exact e.symm
  have hone : ∀ xs q, xs.length ≤ 1 → Reached env1 CoreBB.backend mateInOne (xs ++ []) q →
      q = p ∨ ∃ m ∈ l, p.doMove env1 CoreBB.backend m = some q := by
    intro xs q hx hq
    match xs, hx, hq with
    | [], _, hq => exact .inl (hroot q hq)
    | [m], _, hq =>
      obtain ⟨p', h1, h2, h3⟩ := Reached.lastMove core_mem hq
      rw [hroot p' h1] at h2 h3
      exact .inr ⟨m, ((legalMoves_exact core_mem mateInOne_standard.valid hre hl).2 m).2 h2, h3⟩
  intro xs ys q q' hx hy hq hq' e
  rcases hone xs q hx hq with rfl | ⟨m, hm, h1⟩ <;>
    rcases hone ys q' hy hq' with rfl | ⟨m', hm', h2⟩
  · rfl
  · exact absurd (by rw [h2]; exact e.symm) (hk m' hm').1
  · exact absurd (by rw [h1]; exact e) (hk m hm).1
  · rcases (hk m hm).2 m' hm' with rfl | hne
    · rw [Option.some.inj (h1.symm.trans h2)]
    · exact absurd (by rw [h1, h2]; exact e) hne

/-- A position in which keys do not clash, and the solver with a hash table. -/
theorem C103_example : NoClash env1 CoreBB.backend mateInOne [] 1 ∧
    ∃ p, Reached env1 CoreBB.backend mateInOne [] p ∧
      (hashSearch (bigTable Outcome) env1 CoreBB.backend (solverLeaf env1 CoreBB.backend) solverFold 1 p
        fun _ _ => none).map Prod.fst = some .won := by
  have h : ((Position.new env1 CoreBB.backend mateInOne).any fun p =>
      (hashSearch (bigTable Outcome) env1 CoreBB.backend (solverLeaf env1 CoreBB.backend) solverFold 1 p
        fun _ _ => none).any fun r => r.1 == .won) = true := by decide +kernel
  simp only [Option.any_eq_true, beq_iff_eq] at h
  obtain ⟨p, hp, r, hr, e⟩ := h
  exact ⟨mateInOne_noClash, p, ⟨p, hp, .start⟩, by rw [hr]; exact congrArg some e⟩

/-- The position of C101 seen in a mirror. -/
def mateOnNinth : CorePartialPosition where
  side := .black
  ply := 1#16
  hands := fun
    | .black => handOf []
    | .white => handOf [(.rook, 2)]
  board := boardOf [(1,9,.king,.black),(8,3,.gold,.black),(8,4,.knight,.black),(9,1,.king,.white)]

/-- The condition about keys is needed: with numbers that are all zero a table that stores the value of
the first move returns it for all others, and the solver misses a mate. -/
theorem C103_clash_needed : ∃ p, Reached env0 CoreBB.backend mateOnNinth [] p ∧
    (solve env0 CoreBB.backend 1 p).map Prod.fst = some .won ∧
    (hashSearch (bigTable Outcome) env0 CoreBB.backend (solverLeaf env0 CoreBB.backend) solverFold 1 p
      fun _ _ => none).map Prod.fst = some .unclear := by
  have h : ((Position.new env0 CoreBB.backend mateOnNinth).any fun p =>
      ((solve env0 CoreBB.backend 1 p).any fun r => r.1 == .won) &&
      (hashSearch (bigTable Outcome) env0 CoreBB.backend (solverLeaf env0 CoreBB.backend) solverFold 1 p
        fun _ _ => none).any fun r => r.1 == .unclear) = true := by decide +kernel
  simp only [Option.any_eq_true, beq_iff_eq, Bool.and_eq_true] at h
  obtain ⟨p, hp, ⟨r, hr, e⟩, r', hr', e'⟩ := h
  exact ⟨p, ⟨p, hp, .start⟩, by rw [hr]; exact congrArg some e, by rw [hr']; exact congrArg some e'⟩

end

end Yasai.Props
