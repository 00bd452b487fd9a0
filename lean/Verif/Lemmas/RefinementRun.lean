import Verif.Lemmas.RefinementEnds

/-!
# The refinement: running it
-/

set_option linter.unusedSectionVars false

namespace Nikfemm
variable {K : Type} [Field K] [LinearOrder K]

/-- `splitencsegs` when the first entry is always next. -/
def Refining.splitsRun (b : Quality.Behavior K) (sqrt : K → K) (triflaws : Bool) (pick : Refining K → Picks K) :
    Nat → Refining K → Option (Refining K)
  | 0, _ => none
  | n + 1, s => match s.segs with
    | [] => some s
    | q :: _ => (({ s with segs := s.segs.erase q } : Refining K).splitSub b sqrt triflaws (pick s) q).bind
        (Refining.splitsRun b sqrt triflaws pick n)

/-- The loop of `enforcequality` when the first entry is always next. -/
def Refining.improvesRun (b : Quality.Behavior K) (sqrt : K → K) (pick : Refining K → Picks K) :
    Nat → Refining K → Option (Refining K)
  | 0, _ => none
  | n + 1, s => match s.bad with
    | [] => some s
    | q :: _ => (({ s with bad := s.bad.erase q } : Refining K).splitBad b (pick s) q).bind fun s' =>
        if s'.segs = [] then Refining.improvesRun b sqrt pick n s'
        else (Refining.splitsRun b sqrt true pick n { s' with bad := q :: s'.bad }).bind
          (Refining.improvesRun b sqrt pick n)

theorem splitsRun_splits {b : Quality.Behavior K} {sqrt : K → K} {triflaws : Bool} {pick : Refining K → Picks K} :
    ∀ {n : Nat} {s s' : Refining K}, s.splitsRun b sqrt triflaws pick n = some s' → Refining.Splits b sqrt triflaws s s'
  | 0, _, _, h => by cases h
  | n + 1, s, s', h => by
    unfold Refining.splitsRun at h
    split at h
    · next h0 => cases h; exact .done s h0
    · next q l hq =>
      obtain ⟨s1, h1, h2⟩ := Option.bind_eq_some_iff.1 h
      exact .next s s1 s' q _ (by rw [hq]; exact List.mem_cons_self) h1 (splitsRun_splits h2)

theorem improvesRun_improves {b : Quality.Behavior K} {sqrt : K → K} {pick : Refining K → Picks K} :
    ∀ {n : Nat} {s s' : Refining K}, s.improvesRun b sqrt pick n = some s' → Refining.Improves b sqrt s s'
  | 0, _, _, h => by cases h
  | n + 1, s, s', h => by
    unfold Refining.improvesRun at h
    split at h
    · next h0 => cases h; exact .done s h0
    · next q l hq =>
      have hm : q ∈ s.bad := by rw [hq]; exact List.mem_cons_self
      obtain ⟨s1, h1, h2⟩ := Option.bind_eq_some_iff.1 h
      split at h2
      · next h0 => exact .gone s s1 s' q _ hm h1 h0 (improvesRun_improves h2)
      · next h0 =>
        obtain ⟨s2, h3, h4⟩ := Option.bind_eq_some_iff.1 h2
        exact .again s s1 s2 s' q _ hm h1 h0 (splitsRun_splits h3) (improvesRun_improves h4)

end Nikfemm
