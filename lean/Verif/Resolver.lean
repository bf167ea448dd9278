import Verif.Base
import Mathlib.Data.List.Perm.Basic

/-!
# `TLresolver`: which parameters of a transmission line are found, and from what

Models `/repo/src/pyRFtk/resolveTLparams.py:24-371` (`TLresolver.__init__` with its local `solveit`), leaving out the
numerical values (those are in `ResolverLine.lean`).  What is kept: the table of equations in its order, the
complements for missing information, the search loop with its `used` and `forget` tables, and the consistency check,
of which only the fact that it *evaluates* the functions (and may raise `AttributeError`) matters: its result is only
printed.
-/

namespace PyRFtk.Resolver

/-- the parameter names: the keys of `trl_kwargs` (resolveTLparams.py:34-44), which a caller may supply, followed by the
names which only equations set (`rjwL`, `gjwC`, `Zc`, `gamma`, `beta`). -/
inductive Par
  | OD | ID | rho | rhoO | rhoI | Rs | RsO | RsI | rTL | rTLO | rTLI | qTL | qTLI | qTLO | murI | murO | A | AdB
  | gTL | sigma | tand | LTL | CTL | Z0TL | epsr | mur | vr | etar
  | rjwL | gjwC | Zc | gamma | beta
deriving DecidableEq, Repr

namespace Par

/-- every parameter name -/
def all : List Par :=
  [OD, ID, rho, rhoO, rhoI, Rs, RsO, RsI, rTL, rTLO, rTLI, qTL, qTLI, qTLO, murI, murO, A, AdB,
   gTL, sigma, tand, LTL, CTL, Z0TL, epsr, mur, vr, etar, rjwL, gjwC, Zc, gamma, beta]

theorem mem_all (p : Par) : p ∈ all := by cases p <;> decide

/-- the names accepted as keyword arguments: the keys of `trl_kwargs` (resolveTLparams.py:34-44) -/
def accepted : Par → Bool
  | rjwL | gjwC | Zc | gamma | beta => false
  | _ => true

end Par
open Par

/-- one line of `EQNS` (resolveTLparams.py:156-283): the parameter it sets, the parameters it waits for, and the
parameters its function reads when called.  `reads` differs from `deps` in one place only (`_rTLO__qTLO_RsO_`,
resolveTLparams.py:112-113). -/
structure Eqn where
  /-- position in `EQNS` -/
  id : ℕ
  /-- the parameter it sets -/
  kw : Par
  /-- the parameters the search waits for -/
  deps : List Par
  /-- the parameters the function body calls -/
  reads : List Par
deriving DecidableEq, Repr

/-- an equation whose function reads what it declares -/
def eqn (i : ℕ) (k : Par) (d : List Par) : Eqn := ⟨i, k, d, d⟩

/-- `EQNS` (resolveTLparams.py:156-283), in order. -/
def EQNS : List Eqn := [
  eqn 0 murI [], eqn 1 murO [],
  eqn 2 rjwL [rTL, LTL], eqn 3 gjwC [gTL, CTL],
  eqn 4 LTL [Z0TL, vr], eqn 5 CTL [Z0TL, vr],
  eqn 6 LTL [Z0TL, CTL], eqn 7 CTL [Z0TL, LTL], eqn 8 Z0TL [LTL, CTL],
  eqn 9 vr [CTL, LTL], eqn 10 LTL [CTL, vr], eqn 11 CTL [LTL, vr],
  eqn 12 Z0TL [etar, ID, OD], eqn 13 ID [etar, OD, Z0TL], eqn 14 OD [etar, ID, Z0TL],
  eqn 15 gTL [ID, OD, sigma], eqn 16 gTL [sigma, Z0TL, etar],
  eqn 17 rTL [rTLI, rTLO], eqn 18 rTLI [rTL, rTLO], eqn 19 rTLO [rTL, rTLI],
  eqn 20 rTLI [RsI, qTLI], ⟨21, rTLO, [RsO, qTLO], [qTLO, RsI]⟩,
  eqn 22 qTLI [ID], eqn 23 qTLO [OD],
  eqn 24 RsI [rhoI, murI], eqn 25 RsO [rhoO, murO],
  eqn 26 etar [mur, epsr], eqn 27 mur [etar, epsr], eqn 28 epsr [etar, mur],
  eqn 29 vr [mur, epsr], eqn 30 mur [vr, epsr], eqn 31 epsr [vr, mur],
  eqn 32 mur [etar, vr], eqn 33 vr [etar, mur], eqn 34 etar [mur, vr],
  eqn 35 etar [Z0TL, ID, OD],
  eqn 36 A [AdB],
  eqn 37 rTL [gTL, LTL, CTL, A], eqn 38 gTL [rTL, LTL, CTL, A], eqn 39 A [rTL, gTL, LTL, CTL],
  eqn 40 sigma [tand, epsr],
  eqn 41 mur [], eqn 42 epsr [], eqn 43 Z0TL [],
  eqn 44 sigma [gTL, OD, ID], eqn 45 tand [sigma, epsr],
  eqn 46 Zc [rjwL, gjwC], eqn 47 gamma [rjwL, gjwC], eqn 48 beta [LTL, CTL]]

/-- where the current function of a parameter comes from (`self.kwset[kw]['source']` together with the function bound to
the attribute `self.<kw>`). -/
inductive Src
  /-- a keyword argument (resolveTLparams.py:287-294) -/
  | input
  /-- the constant `lambda w, x: 0.` of a missing loss term (resolveTLparams.py:303-334) -/
  | zero
  /-- the function of `rho`, copied (resolveTLparams.py:336-342) -/
  | rho
  /-- the function of an equation (resolveTLparams.py:363) -/
  | eqn (e : Eqn)
deriving DecidableEq, Repr

/-- the resolver while it works: the supplied names (`kwargs`, in the order given), what was set since (latest first;
together they are `self.order`, `self.kwset` and the attributes), the signatures in `used`, and the `forget` table
(latest first). A signature is a tuple sorted by name; here it is a list compared up to order, which is the same
equality. -/
structure St where
  /-- the supplied names, in order -/
  inp : List Par
  /-- the parameters set afterwards, latest first -/
  der : List (Par × Src)
  /-- `used` (resolveTLparams.py:352, 365) -/
  used : List (List Par)
  /-- `self.forget` (resolveTLparams.py:27-29) -/
  forget : List (List Par × Par)

/-- the last function set for `p` (Python's attribute lookup), latest first -/
def lastSet : List (Par × Src) → Par → Option Src
  | [], _ => none
  | (q, s) :: rest, p => if p = q then some s else lastSet rest p

/-- the function currently bound to the attribute `p` -/
def St.src (s : St) (p : Par) : Option Src :=
  match lastSet s.der p with
  | some x => some x
  | none => if p ∈ s.inp then some .input else none

/-- `kw in self.kwset` -/
def St.known (s : St) (p : Par) : Bool := s.inp.contains p || s.der.any (fun q => q.1 == p)

/-- the signature of an equation, `tuple(sorted(depends + (kw,)))` (resolveTLparams.py:357), up to order -/
def Eqn.sig (e : Eqn) : List Par := e.deps ++ [e.kw]

/-- `sig in self.forget and self.forget[sig] == kw` (resolveTLparams.py:359): the value stored last under the
signature decides. -/
def forgotten (fg : List (List Par × Par)) (e : Eqn) : Bool :=
  match fg.find? (fun x => x.1.isPerm e.sig) with
  | some x => x.2 == e.kw
  | none => false

/-- one more parameter set, after those of which `b` are known to raise -/
def brk (has : Par → Bool) : Par × Src → List Par → List Par
  | (p, .eqn e), b => if e.reads.any (fun r => !has r || b.contains r) then p :: b else b
  | (_, _), b => b

/-- the parameters whose function raises `AttributeError` when called, because it reads a parameter that has no
function (yet), or that itself raises. (`has` tells which parameters have a function.) -/
def broken (has : Par → Bool) : List (Par × Src) → List Par
  | [] => []
  | x :: rest => brk has x (broken has rest)

/-- the parameters whose function currently raises `AttributeError` when called -/
def St.broken (s : St) : List Par := Resolver.broken s.known s.der

/-- calling the function of equation `e` now raises `AttributeError` -/
def St.callFails (s : St) (e : Eqn) : Bool :=
  e.reads.any (fun r => !s.known r || s.broken.contains r)

/-- what one pass over the table finds: an equation to apply, nothing, or an exception out of the consistency check -/
inductive Found
  | use (e : Eqn) | nothing | raised
deriving DecidableEq

/-- the `for` loop of `solveit` (resolveTLparams.py:355-390). Left out: the comparison of the two values in the
consistency check, which only prints; user functions are taken to return numbers. -/
def scan (s : St) : List Eqn → Found
  | [] => .nothing
  | e :: es =>
      if s.used.any (fun u => u.isPerm e.sig) || forgotten s.forget e then scan s es
      else if !s.known e.kw && e.deps.all s.known then .use e
      else if e.deps.all s.known && !e.deps.isEmpty then
        (if s.broken.contains e.kw || s.callFails e then .raised else scan s es)
      else scan s es

/-- applying an equation (resolveTLparams.py:363-373) -/
def St.apply (s : St) (e : Eqn) : St := { s with der := (e.kw, .eqn e) :: s.der, used := e.sig :: s.used }

/-- `solveit` (resolveTLparams.py:346-392) with a bound on the number of passes; `hang` when the bound is used up
(`C40_terminates` proves it never is). The check `hasattr(self, p)` for `Zc` and `gamma` is `known`, as neither can be
supplied. -/
def solveit : ℕ → St → Except Err St
  | 0, _ => .error .hang
  | n + 1, s =>
      if s.known Zc && s.known gamma then .ok s
      else match scan s EQNS with
        | .use e => solveit n (s.apply e)
        | .nothing => .ok s
        | .raised => .error .attributeError

/-- is one of these supplied (`any(avail(…))`, resolveTLparams.py:298) -/
def avail (kws : List Par) (ps : List Par) : Bool := ps.any (fun p => kws.contains p)

/-- the names that say something about conductor losses (resolveTLparams.py:303-304, 324-325) -/
def conductor : List Par := [Rs, RsI, RsO, rTL, rTLO, rTLI, Par.rho, rhoI, rhoO]

/-- the names that say something about medium losses (resolveTLparams.py:312, 326); `Am`, `AmdB`, `Ac`, `AcdB` are also
listed in the code but cannot be supplied (resolveTLparams.py:34-44, 295-297). -/
def medium : List Par := [sigma, tand]

/-- the complements for missing information (resolveTLparams.py:300-342), latest first. -/
def complement (kws : List Par) : List (Par × Src) :=
  (if kws.contains Par.rho && !avail kws [rhoI, rhoO] then [(rhoO, .rho), (rhoI, .rho)] else []) ++
  (if !avail kws [A, AdB] then
    (if !avail kws medium then [(gTL, .zero)] else []) ++ (if !avail kws conductor then [(rTL, .zero)] else [])
   else
    (if !avail kws (conductor ++ medium) then [(gTL, .zero)] else []))

/-- the state in which the search starts -/
def start (fg : List (List Par × Par)) (kws : List Par) : St :=
  ⟨kws, complement kws, [], fg⟩

/-- enough passes for the search, see `C40_terminates` -/
def fuel : ℕ := 34

/-- `TLresolver(**kwargs)` (resolveTLparams.py:24-396): the state left behind, or the exception. `kws` are the supplied
names in the order given (`Zbase`, `L`, `f0`, `forget` are popped before), `fg` the `forget` table.  When the search
fails the object is printed, which calls every function set (resolveTLparams.py:396-397, 403-419); an `AttributeError` of
one of them leaves the constructor. -/
def tlresolver (fg : List (List Par × Par)) (kws : List Par) : Except Err St :=
  if kws.all Par.accepted then
    match solveit fuel (start fg kws) with
    | .error e => .error e
    | .ok s =>
        if s.known Zc && s.known gamma then .ok s
        else if s.broken.isEmpty then .ok s else .error .attributeError
  else .error .valueError

end PyRFtk.Resolver
