{
"C01":["mc, PiecewiseLinear over an ordered field","case split on signs, order lemmas"],
"C02":["all four reconstructions","direct computation with division side conditions discharged (eps>0)"],
"C03":["all four reconstructions","field algebra; WENO weights sum to one"],
"C04":["all four reconstructions","definitional mirror + ring"],
"C05":["WENO5Z","positivity of weights, convex-combination spec"],
"C06":["mp5_subcalc, MINMOD, Median","order case analysis against an independent interval spec"],
"C07":["PiecewiseLinear","sign cases"],
"C08":["loops as fuelled recursion on bracket state","loop invariant"],
"C09":["same","bracket invariant + intermediate value theorem; negation witness for f(a)=0"],
"C10":["same","induction on fuel; witness for last-iteration failure"],
"C11":["functions on explicit entries","field_simp/ring against Mathlib Matrix product"],
"C12":["weights and Do1D/2D/3D","ring; clamp lemmas"],
"C13":["GetLorentzFactor, GetFourVelocity over ℝ","algebra with 3+1 metric spec"],
"C14":["tmunu.hpp","algebra with 3+1 metric spec"],
"C15":["p2c and tmunu","algebra"],
"C16":["llf, hll","ring, order"],
"C17":["FluxCT loops as functions of cell index over ℤ","ring"],
"C18":["RK stage on B fields","induction over stage list"],
"C19":["flux-difference update","Finset telescoping, induction over steps"],
"C20":["FixFluxes","case analysis on boundary condition"],
"C21":["ApplyFloors scalar core","order lemmas"],
"C22":["ApplyFloors velocity clamp","real algebra, witness for the wrong factor"],
"C23":["fixup stencil average with mask","convex combination; permutation fold independence"],
"C24":["netfield controller","order lemmas, witness"],
"C25":["GenericBC loops","function update lemmas"],
"C26":["inflow check","algebra/order"],
"C27":["Step status logic","list induction, witness"],
"C28":["dt selection","induction"],
"C29":["stage combination","induction"],
"C30":["SetConnectionCoeffFromMetricDerivs","ring"],
"C31":["Flatten2","decide over the complete table"],
"C32":["cache write and read index arithmetic","index algebra"],
"C33":["closed-form metrics","field_simp/ring, trig identities"],
"C34":["closed-form metrics","ring"],
"C35":["closed-form metrics","HasDerivAt"],
"C36":["modified_system transforms","Matrix algebra"],
"C37":["coordinate maps","HasDerivAt + matrix product"],
"C38":["Gram-Schmidt with arbitrary bilinear form","algebra"],
"C39":["UnitConversions","field_simp"],
"C40":["reduction as fold","induction"],
"C41":["GetVolIntersectHelper","order cases, telescoping induction"],
"C42":["Thomas algorithm on lists/functions of ℕ","induction over rows"],
"C43":["hypersurface RK2","induction"],
"C44":["TOV RK2","induction"],
"C45":["tracer rhs and push","algebra, witness"],
"C46":["ClosureEdd","algebra with inverse-metric spec"],
"C47":["LinearSourceUpdate","field_simp"],
"C48":["closure functions","nlinarith"],
"C49":["source update decision logic with uninitialised values as Option","case analysis, witness"],
"C50":["quadrature formulas","ring + trig; additivity"],
"C51":["PushParticle","induction"],
"C52":["tau fit, Ye update, gain latch","order; induction over history"],
"C53":["cell selection predicate","order on strictly increasing faces"],
"C54":["flag conventions","case analysis, witness"],
"C55":["robust.hpp","order"]
}
