#!/usr/bin/env python3
"""Generates /verif/properties.jsonl (one row per property)."""
import json
P = []
def p(title, statement, quantifier, why, anchors):
    P.append(dict(id="C%02d" % (len(P)+1), title=title, statement=statement,
                  quantifier=quantifier, why_tests_cant=why, anchors=anchors))

G = "newt/glib.py"; M = "newt/pg2Multi.py"; T = "newt/translations.py"
TR = "newt/translationRecurs.py"; R = "newt/rotations.py"; C = "newt/clebschGordan.py"
ML = "newt/multipoleLib.py"; Q = "newt/qlm.py"; QA = "newt/qlmACH.py"; QN = "newt/qlmNum.py"
S = "newt/shapes.py"; RM = "newt/read_multiFor.py"; GS = "newt/glibShapes.py"; GL = "newt/gShapeGL.py"
BQ = "newt/bigQlm.py"

p("Newton's third law for gravity",
  "For any two point-mass arrays with no coincident pair, point_matrix_gravity(A,B) and point_matrix_gravity(B,A) return exactly opposite forces and exactly opposite torques about the origin.",
  "all pairs of point arrays of any length, any real masses and positions without a coincident pair",
  "a test checks a handful of arrays; the law must hold for every array length and geometry",
  [G+":point_matrix_gravity", G+":gmmr2_array"])
p("Newton's third law for the Yukawa force",
  "The same action/reaction law for point_matrix_yukawa with any coupling alpha and any length scale lmbd.",
  "all point-array pairs without coincidence, all alpha, all nonzero lmbd",
  "continuum of couplings, ranges and geometries",
  [G+":point_matrix_yukawa", G+":yukawa_array"])
p("Superposition of sources and of test masses",
  "Force and torque of a concatenation of arrays is the sum of the forces and torques of the pieces, in either argument; the order of the points never matters; and scaling the masses of either argument scales the result.",
  "all arrays, all splits, all permutations, all scale factors",
  "unbounded number of splits/permutations",
  [G+":point_matrix_gravity", G+":point_matrix_yukawa"])
p("Translation covariance of force and torque",
  "Translating both arrays by the same vector d with translate_point_array leaves the force unchanged and changes the torque exactly by d x F.",
  "all arrays, all translation vectors",
  "continuum of translations", [G+":translate_point_array", G+":point_matrix_gravity"])
p("Rotation covariance of force and torque",
  "Rotating both arrays by the same angle about the same non-zero axis with rotate_point_array rotates the returned force and torque by that same rotation.",
  "all arrays, angles, non-zero axes", "continuum of axes and angles",
  [G+":rotate_point_array", G+":point_matrix_gravity"])
p("rotate_point_array is a proper rotation about the given axis",
  "For every non-zero axis, rotate_point_array keeps every mass, preserves all inner products (hence distances), preserves orientation, fixes every point of the axis, depends only on the direction of the axis vector (not its length), and turns a vector perpendicular to the axis by exactly theta counter-clockwise. With a zero axis vector the result is undefined (NaN).",
  "all angles, axes, points", "continuum of axes, angles and points", [G+":rotate_point_array"])
p("Rotations about one axis compose; translations compose",
  "rotate_point_array by a then by b about the same axis equals rotating by a+b; rotating by 0 or 2*pi is the identity; translate_point_array by u then by v equals translating by u+v and translating back by -u restores the array.",
  "all arrays, angles, vectors, any length of sequence", "unbounded sequences of moves",
  [G+":rotate_point_array", G+":translate_point_array"])
p("Point forces are minus the gradient of the potential",
  "The force reported on a point mass is minus the gradient, with respect to that point's position, of the Newtonian potential energy -G m1 m2/r summed over the sources; the Yukawa force is minus the gradient of -alpha G m1 m2 exp(-r/lmbd)/r.",
  "all arrays, all field points off the sources, all lmbd != 0", "a derivative identity at every point of space",
  [G+":gmmr2_array", G+":yukawa_array"])
p("Coincident points poison the whole result",
  "gmmr2_array, yukawa_array and the matrix versions give a defined (non-NaN) result exactly when no point of one array coincides with a point of the other; a single coincident pair, even of zero mass, makes every component undefined.",
  "all arrays", "needs every placement of a coincident pair", [G+":gmmr2_array", G+":point_matrix_gravity"])
p("Yukawa reduces to gravity",
  "With alpha = 1 the Yukawa force tends to the Newtonian force as lmbd tends to infinity, and for every finite lmbd > 0 the Yukawa force on a pair is parallel to and strictly weaker than the Newtonian one.",
  "all arrays, limit over all lmbd", "a limit statement", [G+":yukawa_array", G+":gmmr2_array"])
p("qmoments computes the regular solid harmonic sums",
  "For a point array without a point at the origin, entry (l,m) of qmoments(L, A) equals sum_i m_i r_i^l conj(Y_lm(theta_i,phi_i)), equivalently an explicit homogeneous polynomial in the Cartesian coordinates, for every l <= L and |m| <= l; entries with |m| > l are zero; the array satisfies q(l,-m) = (-1)^m conj(q(l,m)).",
  "all L, all l, m, all arrays", "all degrees and orders; every point of space including poles and the half-plane phi = 0",
  [M+":qmoments"])
p("qmoments is monotone in the cut-off",
  "The degree-l moments do not depend on the requested maximum L: every entry of qmoments(L, A) with l <= L equals the entry of qmoments(L', A) for L' >= L.",
  "all L <= L'", "unbounded cut-offs", [M+":qmoments", M+":Qmomentsb"])
p("Points at the origin in qmoments",
  "qmoments with L >= 1 fails with an index error exactly when some point that is not at the origin comes after a point at the origin in the array; otherwise it returns the correct moments. (The code indexes the already-filtered angle arrays again.)",
  "all arrays, all orders of points", "depends on every interleaving of origin and non-origin points",
  [M+":qmoments"])
p("Moments are additive, linear in mass and homogeneous",
  "qmoments and Qmomentsb of a concatenation are the sums of the moments, scaling masses scales the moments, and scaling all coordinates by s scales q_lm by s^l and Q_lm by s^-(l+1).",
  "all arrays, scale factors, degrees", "continuum", [M+":qmoments", M+":Qmomentsb"])
p("qmoment and Qmomentb agree with the array versions",
  "For arrays with no point at the origin, qmoment(l,m,A) equals entry (l,m) of qmoments(L,A) and Qmomentb(l,m,A) that of Qmomentsb(L,A), for every L >= l and every |m| <= l, negative m included.",
  "all l, m, L, arrays", "all orders", [M+":qmoment", M+":Qmomentb"])
p("Outer moments: definition and origin behaviour",
  "Entry (l,m) of Qmomentsb(L, A) is sum_i m_i Y_lm(theta_i,phi_i)/r_i^(l+1); if any point of the array is at the origin the whole array returned is zero.",
  "all L, arrays", "all degrees and arrays", [M+":Qmomentsb", M+":Qmomentb"])
p("imoments uses the wrong Bessel order",
  "imoments(L, lmbd, A) evaluates the modified spherical Bessel function of order L (not l) for every degree 1 <= l <= L, so it agrees with imoment only at l = 0 and l = L in general.",
  "all L, l, lmbd, arrays", "needs all degrees", [M+":imoments", M+":imoment"])
p("Translating inner moments equals moments of the translated body",
  "translate_qlm(qmoments(L, A), d) equals qmoments(L, translate_point_array(A, d)) in every entry, exactly, for every L.",
  "all L, arrays, translation vectors", "all degrees, all vectors including the poles", [T+":translate_qlm", M+":qmoments", G+":translate_point_array"])
p("Inner translations compose and are invertible",
  "For moment arrays obeying the reality symmetry, translating by u and then by v equals translating by u+v, and translating by d then -d restores the moments; a zero vector returns the same array; the monopole entry is never changed.",
  "all L, all symmetric moment arrays, all vectors", "exact for every truncation order", [T+":translate_qlm"])
p("Outer translations compose",
  "translate_Qlmb by u then by v equals translate_Qlmb by u+v for every truncated symmetric array, and is inverted by -u.",
  "all L, arrays, vectors", "exact for every truncation order", [T+":translate_Qlmb"])
p("Inner and outer translation are adjoint",
  "The interaction sum over l <= L of q_lm Q_lm/(2l+1) is the same whether the inner body is translated by d (translate_qlm) or the frame of the outer moments is moved by -d (translate_Qlmb).",
  "all L, arrays, vectors", "all degrees", [T+":translate_qlm", T+":translate_Qlmb"])
p("Clebsch-Gordan selection rules",
  "cgCoeff and cgCoeff2 return 0 whenever |m1| > j1, |m2| > j2, |M| > J, J > j1+j2, J < |j1-j2| or M != m1+m2.",
  "all integer inputs", "unbounded integers", [C+":cgCoeff", C+":cgCoeff2"])
p("The two Clebsch-Gordan implementations agree",
  "cgCoeff and cgCoeff2 return the same value for every integer input.",
  "all integers", "unbounded", [C+":cgCoeff", C+":cgCoeff2"])
p("Clebsch-Gordan reflection symmetry and stretched values",
  "cgCoeff(j1,j2,-m1,-m2,J,-M) = (-1)^(J-j1-j2) cgCoeff(j1,j2,m1,m2,J,M), and for J = j1+j2 and J = j2-j1 the value has the textbook closed form.",
  "all integers", "unbounded", [C+":cgCoeff"])
p("Rotating moments equals moments of the rotated body",
  "rotate_qlm(qmoments(L,A), alpha, beta, gamma) equals qmoments of the array rotated by gamma about z, then beta about y, then alpha about z, in every entry.",
  "all L, all arrays qmoments accepts, all real angles", "all degrees, all angles; the recursion must be right at every degree",
  [R+":rotate_qlm", R+":wignerDl", R+":rotate_H_recurs"])
p("Wigner matrices are unitary",
  "Dlmn and wignerDl matrices are unitary for every degree, so rotate_qlm preserves sum_m |q_lm|^2 for each l.",
  "all l, angles", "all degrees", [R+":wignerDl", R+":Dlmn"])
p("Rotations by zero and about z",
  "rotate_qlm(q,0,0,0) returns the input moments, and rotate_qlm(q,alpha,0,gamma) multiplies q_lm by exp(-i m (alpha+gamma)).",
  "all L, q, alpha, gamma", "all degrees", [R+":rotate_qlm"])
p("Degree-zero Wigner call fails",
  "wignerDl and dlmn called with l = 0 raise (the recursion returns a scalar that is then indexed), whatever the angles; hence torque with minimum cut-off 0 and the recursive translations of monopole-only arrays off the z axis also raise, while rotate_qlm works for every L including 0.",
  "all angles", "every angle must fail", [R+":wignerDl", R+":rotate_H_recurs", ML+":torque"])
p("Recursive translation agrees with the Clebsch-Gordan translation",
  "translationRecurs.translate_qlm and translations.translate_qlm return the same array for every symmetric moment array of degree >= 1 and every translation vector.",
  "all L >= 1, symmetric arrays, vectors", "all degrees; two very different algorithms", [TR+":translate_qlm", T+":translate_qlm"])
p("Torque amplitudes: reality",
  "For moment arrays with the reality symmetry, the cosine amplitudes returned by torque_lm are real and the sine amplitudes purely imaginary.",
  "all L, symmetric arrays", "all degrees", [ML+":torque_lm"])
p("Torque versus angle is minus the derivative of the energy",
  "torques_at_angle(torque_lm(q,Q), phi) summed over l is minus the derivative with respect to phi of the interaction energy of the inner body turned by phi about z.",
  "all L, symmetric arrays, angles", "functional identity in phi for all degrees", [ML+":torque_lm", ML+":torques_at_angle", ML+":torque"])
p("embed_qlm keeps moments",
  "embed_qlm(q, LNew) keeps every moment of degree <= min(L, LNew), pads with zeros, is the identity when LNew = L, and embedding up then back down restores the array.",
  "all L, LNew, arrays", "all sizes", [ML+":embed_qlm"])
p("Multipole force is minus the gradient of the translated energy",
  "multipole_force(L,q,Q,dx,dy,dz) equals minus the gradient, with respect to the displacement of the inner body taken at (dx,dy,dz), of the multipole energy of the displaced inner moments with Q; multipole_force_m sums over m to multipole_force; the call fails exactly for L = 0 at zero displacement.",
  "all L, moments", "gradient identity at all degrees", [ML+":multipole_force", ML+":force_basis"])
p("The multipole expansion converges to point gravity",
  "For an inner array strictly inside and an outer array strictly outside a sphere around the origin, the multipole energy -4 pi G sum_{l<=L} q_lm Q_lm/(2l+1) from qmoments and Qmomentsb converges, as L grows, to the pairwise Newtonian energy.",
  "all separated array pairs; the limit over L", "a limit over all degrees", [M+":qmoments", M+":Qmomentsb", ML+":multipole_force"])
p("Monopole of every solid is its mass",
  "The (0,0) entry returned by each constructor of qlm.py equals density times volume (or mass) over sqrt(4 pi).",
  "all L and all shape parameters", "continuum of parameters", [Q+":annulus", Q+":cone", Q+":rect_prism", Q+":tri_prism", Q+":tetrahedron"])
p("Solid moments equal volume integrals",
  "Each constructor in qlm.py returns in entry (l,m) the integral over the documented solid of density r^l conj(Y_lm), for all L.",
  "all L, parameters", "all degrees and parameters", [Q+":annulus", Q+":cone", Q+":rect_prism", Q+":tri_iso_prism"])
p("Moments of solids obey the reality symmetry and the solid's discrete symmetry",
  "Every array from qlm.py satisfies q(l,-m) = (-1)^m conj q(l,m); entries vanish where l+m is odd for solids symmetric under z -> -z; N-fold symmetric solids only have m divisible by N.",
  "all L, parameters", "all degrees", [Q+":annulus", Q+":rect_prism", Q+":ngon_prism"])
p("Shape bookkeeping: mass and centre of mass",
  "Adding shapes sums mass and moments and puts the centre of mass at the mass-weighted mean; translating a shape by a vector moves the centre of mass by it and leaves mass unchanged; over any sequence of translate/rotate/add operations on any number of objects, each object's mass, centre of mass and inner moments are those of the body the same motions and unions make of the original bodies. New objects start with correct mass and moments; their centre of mass is correct for centred solids only (for Cone, Tetrahedron, Pyramid, TriPrism and annular sectors it stays at the origin). A zero total mass loses the centre of mass; adding objects of different lmax leaves the higher degrees incomplete.",
  "all sequences of operations", "unbounded histories", [S+":Shape.add", S+":Shape.translate", S+":Shape.rotate"])
p("Outer-to-inner translation fails late",
  "Shape.translate on an outer shape with inner=True raises, but only after the centre of mass and the mesh were already moved, leaving the object half-updated; likewise calls on objects without a mesh fail half-way, while combining inner and outer objects fails with no change.",
  "all shapes and vectors", "an error path state for every history", [S+":Shape.translate"])
p("MULTI file reader: command semantics",
  "read_mpc executes the commands of a .mpc file in order with the register semantics (create/add/rotate/translate/load/zeroqlm/gettotal/puttotal/end); comments and blank lines are ignored except for the add look-ahead; the block of an unknown shape is passed over up to the next line with create or end (IndexError if there is none); every known shape, including platehole (degrees up to 5 only, zero above) and cylhole, has the moments of the region it names; commands before any create fail; a NaN in the total survives zeroqlm; the loop ends on every file.",
  "all files", "unbounded programs", [RM+":read_mpc"])
p("Moment-file readers place each line at its (l,m)",
  "read_gsq and read_gbq put the k-th data line at the (l,m) of the triangular order l = 0,1,.., m = 0..l and fill negative m by the reality symmetry.",
  "all files, all degrees", "unbounded lines", [RM+":read_gsq", RM+":read_gbq"])
p("Point-mass solids carry the requested mass",
  "Every generator of glibShapes.py that returns at least one point returns masses that sum to the requested mass, except trapezoid with beta >= pi/2, which returns massless points at the origin.",
  "all parameters and grid sizes", "all sizes", [GS+":annulus", GS+":rectangle", GS+":wedge", GS+":tri_prism"])
p("Point-mass solids lie inside the solid",
  "All points returned by the generators of glibShapes.py lie in the documented solid (rectangle: for nx = ny; otherwise points can fall outside). Some generators reach only a part of it: sphere only the cube of side R, tri_prism only y > 0, pyramid half the base, platehole a narrower hole.",
  "all parameters and grid sizes", "all sizes", [GS+":annulus", GS+":cone", GS+":spherical_random_shell"])
p("Point-mass rectangle is centred only for equal grids",
  "glibShapes.rectangle centres the y grid with (nx-1)/2 instead of (ny-1)/2, so its centre of mass is at y = (ny-nx)/2 * y/ny; it is centred iff nx = ny.",
  "all parameters", "all grid sizes", [GS+":rectangle"])

p("The torque about an axis is minus the energy derivative under rotation",
  "The component along a unit axis of the torque returned by point_matrix_gravity (point_matrix_yukawa) is minus the derivative, with respect to the angle passed to rotate_point_array about that axis, of the pair potential energy of the rotated array.",
  "all array pairs without coincident points, all axes", "a derivative identity for every configuration", [G+":point_matrix_gravity", G+":rotate_point_array"])

R = "newt/rotations.py"
p("Recursive and explicit Wigner matrices agree",
  "Every entry of every matrix returned by wignerDl(L, alpha, beta, gamma) equals the corresponding entry of Dl(l, alpha, beta, gamma), for every real angle (also outside [0, pi]); dlmn(L, beta) returns the same matrices at alpha = gamma = 0.",
  "all L >= 1, all degrees, entries and angles", "two independent algorithms must agree at every degree and angle", [R+":wignerDl", R+":dlmn", R+":Dl", R+":rotate_H_recurs"])
p("Rotations are invertible and keep arrays valid",
  "rotate_qlm(rotate_qlm(q,a,b,c),-c,-b,-a) = q; a rotated valid moment array is valid (reality symmetry, empty corners); rotate_qlm_Ds with wignerDl matrices is rotate_qlm, with conj_trans the reversed rotation; a matrix list of the wrong length leaves the moments unchanged.",
  "all arrays and angles", "all degrees and angles", [R+":rotate_qlm", R+":rotate_qlm_Ds"])

p("Rotations and translations intertwine",
  "Translating inner moments by d and then rotating them gives the same array as rotating first and then translating by the vector d rotated with rotate_point_array through the same three angles.",
  "all valid arrays, vectors and angles", "all degrees, vectors and angles", [R+":rotate_qlm", "newt/translations.py:translate_qlm"])
p("Inner-to-outer translation of a point mass is exact",
  "translate_q2Q of the inner moments of a point mass at the origin gives, to every degree, exactly the outer moments of that point mass moved to d.",
  "all L, masses and non-zero d", "all degrees", ["newt/translations.py:translate_q2Q"])

p("torque() is the torque of the composed motion",
  "torque(qlm, Qlm, euler, rvec) in its 'inner-inner' mode, and in its 'inner-outer' mode for displacements off the +z axis, returns amplitudes whose value at an angle phi (torques_at_angle) is the z torque of torque_lm for the moments turned by phi about z, rotated by the Euler angles and translated by rvec with rotate_qlm, translate_qlm and translate_q2Q.",
  "all L >= 1, moments, angles and off-axis displacements", "all degrees, positions and moments", [ML+":torque"])
p("On-axis inner-outer torque uses column-reversed moments",
  "torque(...) in 'inner-outer' mode with the displacement along the +z axis does not exchange the orders m and -m of the outer moments: it returns the torque of the column-reversed translated moments, and there is a valid input on which the torque has the wrong sign.",
  "all L, moments, on-axis displacements", "a defect visible only on a measure-zero branch", [ML+":torque"])
p("Outer-outer torque translates by the mirrored vector",
  "torque(...) in 'outer-outer' mode returns the torque for the outer body moved by the displacement with its y component mirrored; there is a valid input on which the torque has the wrong sign.",
  "all L, moments, displacements", "all degrees and positions", [ML+":torque"])
p("Outer moments rotate with negated azimuths",
  "The outer moments of an array turned by rotate_point_array through the three Euler rotations are rotate_qlm(Q, -alpha, beta, -gamma); with the inner convention (alpha, beta, gamma) the array turns the wrong way.",
  "all arrays off the origin, all L, all angles", "all degrees and angles", [R+":rotate_qlm", M+":Qmomentsb"])

p("The multipole force converges to the direct force",
  "If the displaced inner array lies within radius a and the outer array outside radius b > a, then multipole_force(L, qmoments(L, A), Qmomentsb(L, B), d) tends, as L grows, to the force point_matrix_gravity returns for the displaced array.",
  "all separated array pairs and displacements; the limit over L", "a limit over all degrees", [ML+":multipole_force", M+":qmoments", M+":Qmomentsb", G+":point_matrix_gravity"])
p("The multipole torque converges to the direct torque",
  "For separated arrays, torques_at_angle of the amplitudes of torque_lm(L, qmoments(L, A), Qmomentsb(L, B)) tends, as L grows, to the z torque point_matrix_gravity returns for A turned about z by that angle with rotate_point_array.",
  "all separated array pairs and angles; the limit over L", "a limit over all degrees", [ML+":torque_lm", ML+":torques_at_angle", G+":point_matrix_gravity"])

p("Moments of a moved body of any kind",
  "translate_qlm and rotate_qlm applied to the inner moments of any body (point masses, uniform solids, any signed mass distribution of compact support) give exactly the inner moments of the translated / rotated body, to every degree.",
  "all bodies, all L, vectors and angles", "a statement about all mass distributions", ["newt/translations.py:translate_qlm", R+":rotate_qlm"])
p("The CAD mesh follows the body",
  "Shape.translate moves the mesh with the body; Shape.rotate turns the mesh with alpha and gamma exchanged, so mesh and moments describe the same body when alpha = gamma and in general do not.",
  "all shapes, vectors, angles", "all angles", [S+":Shape.rotate", S+":Shape.translate", "newt/genCAD.py:rotate_mesh"])
p("Rotating a shape that holds outer moments",
  "Shape.rotate(phi,0,0) on an object with outer moments turns the centre of mass by phi but turns the moments by -phi (they become the outer moments of the array turned by -phi).",
  "all point arrays off the origin, all L and angles", "all degrees and angles", [S+":Shape.rotate", R+":rotate_qlm"])

p("Inner-to-outer translation converges",
  "If all mass of a body lies within radius a of the origin and |d| > a, every moment (l, m) returned by translate_q2Q applied to its inner moments up to degree L tends, as L grows, to the outer moment of the body moved by d, with an explicit geometric error bound; for point arrays: to Qmomentsb of translate_point_array(A, d).",
  "all bodies, displacements beyond the body's radius, all l, m; the limit over L", "a limit over all truncation degrees", ["newt/translations.py:translate_q2Q", M+":Qmomentsb", G+":translate_point_array"])
p("Outer-to-outer translation converges",
  "If all mass of a body lies beyond radius D of the origin and |d| < D, every moment (l, m) returned by translate_Qlmb applied to its outer moments up to degree L tends, as L grows, to the outer moment of the body moved by d, with an explicit geometric error bound.",
  "all bodies, displacements smaller than the clearance, all l, m; the limit over L", "a limit over all truncation degrees", ["newt/translations.py:translate_Qlmb", M+":Qmomentsb"])
p("The multipole energy of arbitrary bodies converges",
  "For a body within radius a and a body beyond radius D > a (points, uniform solids, holes), -4 pi G sum q_lm Q_lm/(2l+1) up to degree L differs from the exact energy -G double integral dm dm'/|x-y| by at most G M M' (a/D)^(L+1)/(D-a); in particular qlm.annulus moments against Qmomentsb of a point array.",
  "all separated pairs of bodies, all L", "a limit over all degrees and a statement about all mass distributions", ["newt/qlm.py:annulus", M+":Qmomentsb"])
p("Two sets of inner moments give the energy at any sufficient separation",
  "For a body within radius a and another within radius r (each about its own origin) and |d| > a + r, the energy computed from the inner moments of the first and translate_q2Q(inner moments of the second, d) converges to the exact energy of the first body in the field of the second moved by d, with an explicit error bound.",
  "all pairs of bodies and displacements; the limit over L", "a double truncation whose convergence no finite test settles", ["newt/translations.py:translate_q2Q", M+":qmoments"])

p("Integrated inner moments are volume integrals over the documented solid",
  "With exact quadrature, qlmNum.cyl_mom, cone_mom, trap_mom, steinmetz and platehole return density times the volume integral of r^l conj(Y_lm) over the annular section, cone section, trapezoidal prism, bored cylinder and bored tilted plate they document, in every cell, for all L and accepted parameters (half angle in (0, pi], radii >= 0, tilt in (-pi/2, pi/2)); cyl_mom agrees with qlm.annulus; a negative half angle or a tilt with negative cosine is accepted and gives the moments of negative density.",
  "all L, densities and parameters", "integration limits, argument order and the real part must be right for every parameter and degree", [QN+":cyl_mom", QN+":cone_mom", QN+":trap_mom", QN+":steinmetz", QN+":platehole", Q+":annulus"])
p("Integrated outer moments are volume integrals over the documented solid",
  "With exact quadrature, bigQlmNum.annulus, outer_cone and trapezoid return density times the volume integral of Y_lm / r^(l+1) over the documented solid, in every cell, whenever the solid stays off the origin; annulus and trapezoid raise ValueError when it reaches the origin, outer_cone does not.",
  "all L, densities and parameters", "integration limits, argument order and the real part must be right for every parameter and degree", ["newt/bigQlmNum.py:annulus", "newt/bigQlmNum.py:outer_cone", "newt/bigQlmNum.py:trapezoid"])

p("A distant sphere acts as a point mass",
  "bigQlm.sphere(L, dens, R, x, y, z) returns, in every cell and for all L, the outer moments of one point of mass dens*4/3*pi*R^3 at (x, y, z); if R < |(x, y, z)| these equal density times the volume integral of Y_lm/r^(l+1) over the solid ball; a centre at the origin raises ValueError.",
  "all L, densities, radii and centres", "equality with a volume integral in every cell for every degree", ["newt/bigQlm.py:sphere"])
p("Closed-form outer moments of an annular section",
  "bigQlm.annulus(LMax, dens, H, r0, r1, phic, phih) holds, in the cells with l <= 5 other than (2, 0) and (5, +-3), density times the volume integral of Y_lm/r^(l+1) over the section r0 <= r <= r1 between z = 0 and z = H facing the azimuth MINUS phic; the cell (2, 0) lacks the factor |H|; (5, 3) is off by an explicit non-vanishing term; rows above 5 are zero although the moments are not; hence a section facing any phic with sin(phic) != 0 is put on the wrong side. ValueError exactly for H = 0, r1 < r0, r0 < 0 or a half angle outside (0, pi]; r0 = 0 divides by zero.",
  "all LMax, densities, heights of either sign, radii and angles", "each closed form must equal an integral for every parameter value; the wrong cells agree for special values (H = 1, phic = 0)", ["newt/bigQlm.py:annulus"])

ACH="newt/qlmACH.py"
p("Tabulated inner moments of prisms",
  "qlmACH.rect_prism, annulus (inner radius >= 0), tri_prism and cylindrical_section return, in every cell with l <= 5, the given density times the volume integral of r^l conj(Y_lm) over the documented solid, and zeros above degree 5, for every LMax.",
  "all LMax, densities and accepted parameters", "each tabulated polynomial must equal an integral for every parameter value", [ACH+":rect_prism", ACH+":annulus", ACH+":tri_prism", ACH+":cylindrical_section"])
p("Tabulated inner moments of the tetrahedron, the pyramid and two bored bodies",
  "qlmACH.tetrahedron, pyramid, platehole (tilt in (-pi/2, pi/2)) and cylhole2 (including equal radii) return, in every cell with l <= 5, density times the volume integral of r^l conj(Y_lm) over the documented solid, and zeros above degree 5.",
  "all LMax, densities and accepted parameters", "closed forms with tangents and elliptic integrals must equal a volume integral for every parameter value", [ACH+":tetrahedron", ACH+":pyramid", ACH+":platehole", ACH+":cylhole2"])
p("Wrong cells of the tabulated inner moments",
  "qlmACH.cone is right except for q_50, cone2 except for q_20, trapezoid except for q_4+-4, cylhole except for q_2+-2 and q_4+-4; the differences from the volume integrals are given exactly (for cylhole: a sign), with the exact set of parameters for which the table is right after all; in particular cone2 is wrong for all positive radii and cylhole never agrees with cylhole2 on the same body.",
  "all LMax, densities and accepted parameters", "the wrong cells agree with the right ones for special parameters (unit or vanishing radius), which a test may happen to use", [ACH+":cone", ACH+":cone2", ACH+":trapezoid", ACH+":cylhole"])
p("Parameters the tabulated shapes refuse",
  "For each constructor of qlmACH the exact set of parameters raising ValueError; trapezoid divides by zero exactly when both parallel sides are points; annulus accepts negative inner radii and then returns the (possibly negative) mass of Ri^2 <= r^2 <= Ro^2.",
  "all LMax, densities and parameters", "every parameter combination", [ACH+":rect_prism", ACH+":annulus", ACH+":cone", ACH+":trapezoid", ACH+":platehole", ACH+":cylhole"])
p("The two inner-moment libraries agree up to degree 5",
  "For LMax <= 5 and mass = density * volume, qlmACH.rect_prism, annulus, tri_prism, tetrahedron, pyramid (full against half sides), cone with equal radii and cone2 with vanishing upper radius return the same array as qlm.rect_prism, annulus, tri_prism, tetrahedron, pyramid, cylinder and cone.",
  "all LMax <= 5, densities and parameters", "two differently organised computations must agree for every parameter value", [ACH+":rect_prism", ACH+":annulus", ACH+":tri_prism", ACH+":tetrahedron", ACH+":pyramid", Q+":rect_prism", Q+":annulus"])

p("A Gauss-Legendre brick has the moments of the solid brick",
  "gShapeGL.rectangle(mass, x, y, z, dx, dy, dz) returns dx*dy*dz points of total mass `mass`, strictly inside the brick, positive if mass is, whose inner moments of every degree below 2*min(dx, dy, dz) are exactly those of the uniform brick, and so agree with qlm.rect_prism; a zero count raises ValueError.",
  "all masses, sides and point counts (for any exact Gauss-Legendre table)", "equality with a volume integral in every cell, for every number of points", [GL+":rectangle", Q+":rect_prism"])
p("Gauss-Legendre arrays have the requested mass",
  "gShapeGL.sphere, annulus, cone, wedge and tri_prism, whenever they return points, return points whose masses add up to the requested mass.",
  "all parameters and point counts", "all sizes and node tables", [GL+":sphere", GL+":annulus", GL+":cone", GL+":wedge", GL+":tri_prism"])
p("Where Gauss-Legendre arrays put their points",
  "sphere always returns points, inside the ball, without moments of degree 1, 2 or 3; annulus and wedge points are inside the documented cross-section but fill |z| < t rather than |z| < t/2 (their height spread is that of thickness 2t); cone fills a double cone, each point with a mirror image, and fails for two points per axis; tri_prism points are inside the prism but only in the middle half of its y-range, and a prism towards negative x fails; more z points than in-plane points raise IndexError.",
  "all parameters and point counts (for any exact Gauss-Legendre table)", "properties of all node tables", [GL+":sphere", GL+":annulus", GL+":cone", GL+":wedge", GL+":tri_prism"])

CAD="newt/genCAD.py"
p("The drawn mesh is the body whose moments are computed",
  "Annulus, RectPrism, TriPrism, Cone, Tetrahedron and Sphere (inner) put into the new object the inner moments of a uniform body of the given mass and a mesh filling exactly that body (with the sign of the mass); genCAD.sphere, cylinder, tri_iso_prism, tri_iso_prism2 and tetrahedron fill the bodies whose moments qlm.py computes; genCAD.cone with a top radius is the frustum with sections falling linearly from r2 to r1.",
  "all degrees, masses and accepted parameters", "equality of two regions of space for every parameter value", [CAD+":annulus", CAD+":rect_prism", CAD+":tri_prism", CAD+":cone", CAD+":tetrahedron2", CAD+":sphere", S+":Annulus", S+":Cone", S+":Sphere"])
p("Meshes that differ from the body whose moments are computed",
  "Pyramid draws a mesh with half the sides and NGon one with half the side length (a quarter of the volume each; NGon also ignores phic); trapezoid is lofted along z instead of x; cylhole exchanges heights and radii, so that neither body contains the other; platehole draws a horizontal plate with a tilted hole, contained in the computed body turned by theta about y, equal to it exactly when the drawn plate and drill are large enough (never for negative tilt or tilt >= 60 degrees), and different from the unturned body for every non-zero tilt.",
  "all masses and accepted parameters", "exact comparison of regions for every parameter value", [CAD+":pyramid", CAD+":ngon_prism", CAD+":trapezoid", CAD+":cylhole", CAD+":platehole", S+":Pyramid", S+":NGon"])
p("Adding meshes",
  "sum_mesh, and so Shape.add, keeps a point exactly when the last mesh of the list containing it has positive mass, the first counting as positive; with all positive meshes first the result is their union minus the negative ones, a hole listed before its body disappears, and an OuterCone of negative mass is joined instead of cut out.",
  "all lists of meshes", "lists of any length and arbitrary regions", [CAD+":sum_mesh", S+":Shape.add"])
p("Mass normalisation of Cylhole and Platehole",
  "The moments of an inner Cylhole or Platehole of a given mass are 4 pi times those of the uniform body of that mass, so the monopole is that of the mass only for mass zero; refused parameters raise ValueError.",
  "all degrees, masses, radii, thicknesses and tilts", "volume integrals for every parameter value", [S+":Cylhole", S+":Platehole"])
p("Outer moments of the shape classes",
  "The outer moments of an Annulus are one half of those of the uniform body of its mass (mirrored in azimuth) in all cells of degree <= 5 that bigQlm.annulus gets right; an annulus touching the axis, empty or flat divides by zero, other bad parameters raise ValueError; the outer moments of RectPrism, TriPrism, Cone, NGon, Tetrahedron, Pyramid, Cylhole, Platehole, Sphere and OuterCone are zero whatever the mass; OuterCone accepts exactly 0 < IR < OR, 0 < H, 0 < phih <= pi.",
  "all degrees, masses and parameters", "volume integrals for every parameter value", [S+":Annulus", S+":Sphere", S+":RectPrism"])

p("Multipole force between arbitrary bodies converges",
  "For a body that, displaced, lies within radius a and a body outside radius R > a (any signed combination of uniform solids, points and holes), multipole_force of their inner and outer moments at that displacement converges as the maximum degree grows to the Newtonian force integral G int int (y-x)/|y-x|^3 dm dm', which for point arrays is the force point_matrix_gravity returns.",
  "all bodies of compact support, displacements and radii", "a limit over all degrees, volume integrals over arbitrary bodies", [ML+":multipole_force", T+":translate_qlm", G+":point_matrix_gravity"])
p("Multipole torque between arbitrary bodies converges",
  "For a body within radius a and a body outside radius R > a, the torque torques_at_angle computes from the torque_lm amplitudes of their moments converges as the maximum degree grows to the z component of the Newtonian torque integral on the first body turned by that angle; in particular for qlm.annulus moments against the outer moments of a point array.",
  "all bodies of compact support, angles and radii", "a limit over all degrees, volume integrals over arbitrary bodies", [ML+":torque_lm", ML+":torques_at_angle", Q+":annulus"])
p("Yukawa translation matrices along z",
  "The matrices of transl_yuk_z_RR_recurs and transl_yuk_z_SR_recurs satisfy M[j,i] = (-1)^(i+j) M[i,j] for every order; the first column and row for m=0 are the (signed) modified spherical Bessel functions i_l or k_l of k dr times sqrt(2l+1); at zero displacement applying the RR matrices negates every moment with l > |m| instead of leaving the moments unchanged, and the (1,1) coefficient of both is wrong (not three times the derivative of the first Bessel function) at every positive k dr.",
  "all maximum degrees, displacements and screening lengths", "recursions of any depth over real parameters", [TR+":transl_yuk_z_RR_recurs", TR+":transl_yuk_z_SR_recurs"])
p("qlm.cyl_mom",
  "qlm.cyl_mom ignores its density argument, raises for every order M >= L (the monopole included), and for M=0 and every degree L >= 1 returns -(L+3)!/(4 pi^2) times the moment of the cylinder of density 1 (for L=2, -30/pi^2), so it is wrong for every positive density unless the moment vanishes. The moments of order M > 0 of a cylinder vanish; the result for M = L-1 does too, but for M = L-2 it is never zero.",
  "all degrees, orders, densities, heights and radii", "volume integrals for every parameter value", [Q+":cyl_mom"])

p("Point arrays converge to the uniform solid",
  "As the grid numbers grow, the arrays of annulus, wedge, cone, outer_cone, trapezoid, cylhole, tri_prism and tetrahedron (with y1 >= 0), rectangle (nx = ny) and ngon_prism become equidistributed over the documented solid: every point in it, equal masses adding up to the mass, and for every continuous function the mass-weighted sum tends to the volume average times the mass. The limits of the other arrays are also determined: sphere fills the cube of side R, rectangle with nx:ny = a:b the box shifted by y(b-a)/(2b), pyramid the pyramid of half the sides, tri_prism and tetrahedron the part with y >= 0, platehole (with 2 r + 3 t tan(theta) >= 0) the sheared disc cylinder.",
  "all masses and dimensions, every continuous function, grid numbers going to infinity independently", "a limit over grids of any size and all test functions", [GS+":annulus", GS+":wedge", GS+":cone", GS+":outer_cone", GS+":trapezoid", GS+":cylhole", GS+":tri_prism", GS+":tetrahedron", GS+":rectangle", GS+":ngon_prism", GS+":sphere", GS+":pyramid", GS+":platehole"])
p("Point arrays that never become the documented solid",
  "However fine the grid, the arrays of sphere do not converge to the ball of radius R, those of pyramid not to the pyramid of the documented sides, those of platehole with a non-zero tilt not to the drilled plate, those of tri_prism and tetrahedron with y1 < 0 not to the documented body, and those of rectangle with nx:ny fixed and different from 1 not to the centred box.",
  "all masses and dimensions, grid numbers going to infinity", "negation of a limit for every parameter value", [GS+":sphere", GS+":pyramid", GS+":platehole", GS+":tri_prism", GS+":tetrahedron", GS+":rectangle"])
p("Force and torque of refined point arrays",
  "When the arrays of two bodies a positive distance apart are refined independently, point_matrix_gravity and point_matrix_yukawa eventually succeed and their force and torque converge to the double volume integrals of the Newton and Yukawa laws; this holds for arrays that are stacked, translated with translate_point_array or turned with rotate_point_array, with the assembly moved the same way; the limits agree with those of multipole_force and torques_at_angle with exact moments as the degree grows.",
  "all pairs of converging families of arrays, all assemblies, screening lengths and separations", "double limits and volume integrals over arbitrary bodies", [G+":point_matrix_gravity", G+":point_matrix_yukawa", G+":translate_point_array", G+":rotate_point_array", ML+":multipole_force", ML+":torques_at_angle"])
p("Moments of refined point arrays",
  "The moments qmoments and Qmomentsb compute for converging families of arrays converge to the inner and (away from the origin) outer moments of the body; away from the origin qmoments succeeds; in particular qmoments of the annulus arrays converges to qlm.annulus.",
  "all degrees and orders, all converging families of arrays", "limits and volume integrals", [M+":qmoments", M+":Qmomentsb", GS+":annulus", Q+":annulus"])

p("Cylindrical coordinates",
  "cart_2_cyl returns a non-negative radius, an azimuth in [0, 2 pi) and the same height; cyl_2_cart takes its result back to the point, on the axis too; cylindrical coordinates survive the opposite round trip exactly when the radius is positive and the azimuth in [0, 2 pi), or both are zero.",
  "all points and all cylindrical coordinates", "all real triples", [GS+":cart_2_cyl", GS+":cyl_2_cart"])
p("Spheres act as points; moments determine the forces",
  "Two bodies within a ball with the same inner moments of all degrees feel the same energy, force and torque (all three components) from any body outside the ball. In particular qlm.sphere returns the moments of a point mass, any body outside a uniform sphere, wherever it is, acts on it as on the point mass at its centre, and for assemblies of non-touching uniform spheres point_matrix_gravity of the centres returns the exact force and torque between the solid spheres (glibShapes.sphere advises to use a point).",
  "all bodies of compact support, all assemblies of spheres, masses, radii and positions", "volume integrals over arbitrary bodies, lists of any length", [Q+":sphere", M+":qmoments", G+":point_matrix_gravity", ML+":multipole_force", ML+":torques_at_angle"])

p("Gauss-Legendre arrays converge",
  "As the numbers of nodes grow, the arrays of gShapeGL.rectangle and sphere become the uniform brick and the uniform ball (mass-weighted sums of every continuous function converge to the volume average times the mass); refined sphere arrays act on any array outside as the point mass at the centre does. The limits of the others (with dd = dz) are determined: annulus and wedge become the documented solid of twice the height, cone two cones tip to tip, tri_prism the middle half of the prism; the annulus arrays never become the documented ring.",
  "all masses and dimensions, every continuous function, any number of nodes, any table of Gauss-Legendre rules", "limits over rules of any size and all test functions", [GL+":rectangle", GL+":sphere", GL+":annulus", GL+":cone", GL+":wedge", GL+":tri_prism", G+":point_matrix_gravity"])

OC = "matlab-src/"
p("The Octave gravity is the Python gravity",
  "pointMatrixGravity returns the same force and torque as point_matrix_gravity for all arrays, namely Newton's force and its torque about the origin when no two points coincide, and an undefined result otherwise; translatePMArray moves arrays as translate_point_array does.",
  "all pairs of arrays of any length, all displacements", "all real arrays", [OC+"pointMatrixGravity.m", OC+"Gmmr2Array.m", OC+"translatePMArray.m", G+":point_matrix_gravity", G+":translate_point_array"])
p("Octave rotations turn the other way",
  "rotatePMArray(A, angle, axis) is rotate_point_array(A, -angle, axis) for every array, angle and axis: the rotation about the axis through the origin, clockwise as seen from the tip of the axis vector. The same call gives different arrays in the two implementations unless sin(angle) = 0 or all points are on the axis.",
  "all arrays, angles and axes", "all real inputs", [OC+"rotatePMArray.m", G+":rotate_point_array"])
p("Octave moments mirror the array",
  "computeMoments(l, m, A) is the inner moment of the array in which every point off the z axis is replaced by its mirror image in the plane z = 0: it is the moment of A when l + m is even or all points off the axis have z = 0, minus the moment when l + m is odd and no point is on the axis, and not continuous where a point crosses the axis. computeMomentSummary lists exactly the degrees 1..maxL with 0 <= m <= l, leaving out the monopole.",
  "all degrees, orders and arrays", "spherical harmonics of every degree", [OC+"computeMoments.m", OC+"YLM.m", OC+"computeMomentSummary.m"])
p("Octave shape generators",
  "genPointMassRect with whole counts returns nx ny nz equal masses adding up to the mass, inside the brick, with zero first moments, and fills the brick as the counts grow; with fractional counts it fails or silently loses mass by an exact factor. genPointMassAnnlSheet is glibShapes.annulus with x and z exchanged and fills the annulus. genPointMassXRing is invariant under its own rotation step. genPointMassLine ignores zstart. genPointMassArrayFrom2DArray stacks the documented points under the height map, with a mass below the exact one by at most one layer, and returns nothing for a non-positive density. The random generators return points of the documented region and the requested number and mass; the random shell is that of glibShapes.",
  "all dimensions, masses, counts, height maps and random draws", "all real parameters, arrays of any size and all random outcomes", [OC+"shapes/genPointMassRect.m", OC+"shapes/genPointMassAnnlSheet.m", OC+"shapes/genPointMassXRing.m", OC+"shapes/genPointMassLine.m", OC+"shapes/genPointMassArrayFrom2DArray.m", OC+"shapes/genPointMassRandomDisk.m", OC+"shapes/genPointMassRandomRectangle.m", OC+"shapes/genPointMassSphericalRandomShell.m", GS+":annulus"])
p("Levelling a surface scan",
  "scanCenterAndRemoveLinear returns a scan with zero mean in every coordinate and no correlation of the height with x or y; it only shifts the positions, subtracts from the heights the plane that leaves the smallest sum of squares, and converts to metres. Tilting or displacing the scanned piece does not change the result, and a scan of a plane becomes flat, also when all points lie over one line.",
  "all scans of any length, all planes and shifts", "real data of any length", [OC+"scanCenterAndRemoveLinear.m"])

EX = "newt/example/"
p("Rotors of N equal bodies",
  "Adding to an array its N - 1 copies turned by equal steps about z (as the example scripts do) multiplies the moments whose order is divisible by N by N and removes all others; the result is the array of the N turned bodies. An array is unchanged by rotate_qlm(2 pi / N, 0, 0) exactly when only orders divisible by N occur. The torque between an N-fold rotor and an M-fold source has only harmonics divisible by both, and forces and torques repeat with the angle 2 pi / N.",
  "all N and M, all arrays and degrees, all bodies and angles", "all rotor symmetries, degrees and angles", [R+":rotate_qlm", ML+":torque_lm", ML+":torques_at_angle", ML+":multipole_force", EX+"test_ligo.py", EX+"test_virgo.py"])
p("Turning a rotor step by step",
  "Applying rotate_qlm_Ds k times with the matrices of one step (computed by wignerDl to one degree more, the last one dropped, as test_ligo2.py does) gives exactly rotate_qlm by k steps, so a full circle returns the original array and the scripts that turn the rotor step by step and from the start compute the same forces, one step apart. Without dropping the extra matrix rotate_qlm_Ds returns the array unturned, with no error.",
  "all arrays, steps and numbers of steps", "any number of repeated applications", [R+":rotate_qlm_Ds", R+":wignerDl", EX+"test_ligo2.py"])
p("Force and torque from two sets of inner moments",
  "Take the inner moments of two bodies about their own centres, translate those of the second by d with translate_q2Q, and apply multipole_force or torque_lm and torques_at_angle: as the degree grows the results converge to the Newtonian force on the first body (displaced by any v) and the z torque on the first body (turned by any angle) due to the second body at d, whenever |d| exceeds the sum of the two radii; the error falls at least as fast as theta^L for every theta above (sum of the radii)/|d|. For point arrays the limits are what point_matrix_gravity returns.",
  "all pairs of bodies of compact support (solids, points, with holes), displacements and angles", "limits of series over arbitrary bodies", [T+":translate_q2Q", ML+":multipole_force", ML+":torque_lm", ML+":torques_at_angle", G+":point_matrix_gravity"])
p("The example calculations, end to end",
  "The forces computed by test_ligo.py, test_ligo2.py and test_virgo.py converge, as LMax grows, to the Newtonian force on the turned solid rotor (three plus two cylinders, or two arcs) due to the mirror, a solid cylinder with its axis along y at [dx, dy, 0], for any dimensions such that the mirror is further away than the sum of the two radii; the dimensions in the scripts satisfy this. The LIGO rotor has no moments of orders divisible neither by 2 nor by 3.",
  "all dimensions, masses, numbers of angles and angle indices", "limits of whole calculations over all dimensions", [EX+"test_ligo.py", EX+"test_ligo2.py", EX+"test_virgo.py"])

p("Change of unit of length",
  "Measuring all lengths in another unit changes every result by the power of the unit its dimension demands and in no other way: forces by 1/s^2 and torques by 1/s (point_matrix_gravity, and point_matrix_yukawa with the range in the new unit), inner moments of degree l by s^l and outer ones by s^-(l+1) (qmoments, Qmomentsb and the closed forms of qlm for all solids), and translate_qlm, translate_Qlmb, translate_q2Q, rotate_qlm, multipole_force and torque_lm commute with the change.",
  "all units s > 0, arrays, moments, displacements, rotations, solids and degrees", "all real scale factors and all degrees", [G+":point_matrix_gravity", G+":point_matrix_yukawa", M+":qmoments", M+":Qmomentsb", T+":translate_qlm", T+":translate_Qlmb", T+":translate_q2Q", R+":rotate_qlm", ML+":multipole_force", ML+":torque_lm", Q+":sphere", Q+":cylinder", Q+":annulus", Q+":cone", Q+":ngon_prism", Q+":pyramid"])
p("Rings of point masses",
  "For two coaxial rings of N equal point masses each, point_matrix_gravity gives the torque N G M m d R sum_k sin(c_k)/gap_k^3 and the axial force N G M m (z-h) sum_k 1/gap_k^3, with gap_k the distance of two points whose azimuths differ by c_k = b - a + 2 pi k/N, and no other component when N >= 2; rotate_point_array about z by t only adds t to the azimuth, and the multipole torque of torques_at_angle converges to the same formula at every angle when one ring is nearer the origin than the other. For N = 2 this is the quadrupole formula the test-suite compares with at sample angles.",
  "all N, masses, radii, heights and angles", "all numbers of masses and all real parameters", [G+":point_matrix_gravity", G+":rotate_point_array", M+":qmoments", M+":Qmomentsb", ML+":torque_lm", ML+":torques_at_angle"])

p("Random sources and the shell theorem",
  "With independent uniform random pairs the arrays of spherical_random_shell (and of its Octave counterpart) almost surely become the uniform spherical shell as the number of draws grows, those of genPointMassRandomDisk the uniform annulus (its rejection loop almost surely ends for every number of points) and those of genPointMassRandomRectangle the uniform rectangle. The uniform shell exerts neither force nor torque on a body inside it, and on a body outside it those of a point mass at its centre; hence the results of point_matrix_gravity for points inside tend to zero and for points outside to -G m M x/|x|^3, and the Yukawa force on a point at the centre tends to zero.",
  "all masses, radii, bodies and almost every sequence of random draws", "a limit over infinitely many random draws and over all positions", [GS+":spherical_random_shell", G+":point_matrix_gravity", G+":point_matrix_yukawa", OC+"shapes/genPointMassSphericalRandomShell.m", OC+"shapes/genPointMassRandomDisk.m", OC+"shapes/genPointMassRandomRectangle.m"])

p("The Clebsch-Gordan table is an orthogonal change of basis",
  "For all integer j1, j2 the coefficients cgCoeff returns obey both ladder relations, are orthonormal over (m1, m2) for different (J, M), complete over (J, M) for different (m1, m2), never exceed one in magnitude, change by (-1)^(j1+j2-J) when the two angular momenta are exchanged, and take the textbook values for J = M = 0, for the highest weight, for J = 2 j and for the three families the translation routines need.",
  "all integer arguments", "all angular momenta, sums of any length", [C+":cgCoeff", C+":cgCoeff2", T+":translate_qlm", T+":translate_Qlmb", T+":translate_q2Q"])
p("Symmetries and explicit entries of the Wigner matrices",
  "The small d matrices, computed recursively by dlmn and explicitly by Dl, have in every degree and for every angle (not only 0 <= beta <= pi) the six symmetries of the textbook (transpose, antitranspose, pi - beta, pi + beta, -beta as inverse and as change of sign); at beta = pi they are antidiagonal with alternating signs; the full matrices have the conjugation symmetry; and degrees one and two equal the tabulated matrices entry by entry.",
  "all degrees, orders and real angles", "all real angles and degrees", [R+":dlmn", R+":Dl", R+":Dlmn"])
p("Clebsch-Gordan table and Wigner matrices belong together",
  "The coefficients of cgCoeff intertwine the matrices of wignerDl (coupling after rotating equals rotating after coupling), and the product of any entries of two Wigner matrices is the Clebsch-Gordan series in the matrices of the coupled degrees; so the two independent implementations use the same phase conventions.",
  "all degrees, orders and Euler angles", "all real angles and degrees", [C+":cgCoeff", R+":wignerDl", R+":Dl"])
p("Bodies of revolution",
  "rotate_qlm turns the moments of a body of revolution (only order zero) into sqrt(4 pi/(2 l+1)) times the conjugate spherical harmonic of the direction (alpha, beta) of its axis times the moment of order zero, whatever the angle gamma about its own axis; the middle column of the matrices of wignerDl is that harmonic and the central entry the Legendre polynomial of cos beta. An array belongs to a body of revolution exactly when no rotation about z changes it, and it feels no torque about z. Spheres, cylinders, whole rings and whole cones of qlm are such bodies.",
  "all arrays, degrees, Euler angles and dimensions", "all real angles and degrees", [R+":rotate_qlm", R+":wignerDl", ML+":torque_lm", Q+":cylinder", Q+":annulus", Q+":cone", Q+":sphere"])

p("The remaining Octave routines",
  "scanToPMArray returns, over each node of the grid spanned by the scan, one point for each cell of height zspacing that fits under the interpolated surface, at positions relative to the middle of the grid, so a scan moved sideways gives the same array; scatterPMMassesYZGrid, documented to scatter y and z, keeps masses and heights and moves x and y; genPointMassRoundXSheet never returns a value; SampleDemo computes one row per angle, 63 in all, holding exactly Newton's force and torque on the pendulum from the attractor turned clockwise by that angle.",
  "all scans, spacings, interpolations, arrays, random draws and angle indices", "all inputs and all random draws", [OC+"scanToPMArray.m", OC+"scatterPMMassesYZGrid.m", OC+"shapes/genPointMassRoundXSheet.m", OC+"SampleDemo.m"])

p("Far field of point arrays",
  "For arrays that fit in balls of radii ra and rb whose centres are d apart (|d| > ra + rb), point_matrix_gravity succeeds and its force differs from that of the two total masses at the centres by at most G sum|m| sum|m'| s(2|d|-s)/(|d|^2(|d|-s)^2), s = ra + rb, and its torque from that of a uniform field on the first moment by at most ra times that; the square of the distance times the force tends to G M M' n. The Yukawa force and torque are bounded by those of the total masses at the smallest possible distance and vanish faster than any power of the distance.",
  "all arrays, displacements, strengths and ranges", "all arrays and all distances", [G+":point_matrix_gravity", G+":point_matrix_yukawa", G+":translate_point_array"])
p("Plates and sheets",
  "On the axis of a round plate with a concentric hole the arrays of annulus exert, in the limit of fine grids, the textbook attraction and no sideways force; at any point above a whole plate of radius R the vertical force lies between (1 - h/(R-s)) and 1 times 2 pi G times mass per area (s the distance from the axis, h the height) and the sideways force is below s(2R-s)/(2(R-s)^2) of it, so the infinite sheet attracts uniformly.",
  "all plates, heights above the plate and distances from the axis", "limits of grids and of the radius, all positions", [GS+":annulus", G+":point_matrix_gravity"])

p("Yukawa interaction of spheres and shells",
  "Under the Yukawa interaction a uniform ball of mass m and radius R acts on everything outside it, and is acted on, like a point of mass m times 3(x cosh x - sinh x)/x^3, x = R/lambda, at its centre; a uniform spherical shell like a point of mass m sinh(x)/x, and inside the shell there is a force, unlike Newton's. So the force and torque point_matrix_yukawa returns for refined arrays of separated balls, of gShapeGL.sphere, and of almost every sequence of spherical_random_shell tend to those of the rescaled points. Both factors exceed one, the shell's more than the ball's, and tend to one for long ranges.",
  "all radii, ranges (including negative), strengths, masses, separated positions and almost every sequence of random draws", "limits over grids and random draws, all positions", [G+":point_matrix_yukawa", GS+":spherical_random_shell", GL+":sphere"])
p("Yukawa field of plates and sheets",
  "On the axis of a round plate with a concentric hole the arrays of annulus exert under point_matrix_yukawa, in the limit of fine grids, the closed-form attraction 2 pi lambda alpha G m rho times the alternating sum of exp(-distance/lambda) to its four edge circles and no sideways force; at any point above a whole plate the force equals that of the infinite sheet up to errors that decay exponentially with the distance to the edge over lambda; the infinite sheet's force falls by exp(-d/lambda) when lifted by d and tends to Newton's 2 pi G sigma for long ranges.",
  "all plates, ranges, heights above the plate and distances from the axis", "limits of grids and of the radius, all positions", [GS+":annulus", G+":point_matrix_yukawa"])

p("Rounding errors of point_matrix_gravity",
  "In floating point arithmetic of unit roundoff u (each operation within relative distance u of exact, no overflow or underflow), whatever the order in which numpy and BLAS sum and whether they fuse multiplications, point_matrix_gravity gives a number exactly when no two points coincide, and each component of the force differs from the exact one by at most (1-u)^-(18+M+N) - 1 times the sum of the absolute values of the pair forces (20+M+N for the torque). So positive masses on one side of an axis give a relative error of about (18+M+N) u and the right sign, action and reaction cancel to that accuracy, and doubles with up to 400000 points have ten correct digits where nothing cancels.",
  "all arrays, all roundings and all summation orders", "every possible sequence of roundings and every summation order", [G+":gmmr2_array", G+":point_matrix_gravity"])
p("Rounding errors of point_matrix_yukawa",
  "Under the same arithmetic and for a positive range point_matrix_yukawa gives a number exactly when no two points coincide, and each pair contribution carries at most the error of 23+M+N roundings (25+M+N for the torque) times exp(r/lambda times the error of five roundings): the exponential amplifies the rounding of the distance in proportion to r/lambda and no more.",
  "all arrays, strengths, positive ranges, all roundings and all summation orders", "every possible sequence of roundings and every summation order", [G+":yukawa_array", G+":point_matrix_yukawa"])
p("Sensitivity to positions and rounded translations",
  "If the points of two arrays are displaced by at most sa and sb, together less than their smallest distance D, point_matrix_gravity stays defined and its force changes by at most G sum|m| sum|m'| s(2D-s)/(D^2(D-s)^2), s = sa+sb (similarly the torque). translate_point_array in floating point displaces each point by at most u times its distance from the origin, so computing translation and force in floating point adds just that error to the one of the force.",
  "all arrays, displacements, translations and roundings", "all displacements and every sequence of roundings", [G+":point_matrix_gravity", G+":translate_point_array"])

p("Truncation error of multipole forces and torques",
  "If a displaced body lies within radius a of the origin and another outside radius R > a, each component of multipole_force of their moments up to degree L differs from the Newtonian force by at most G M M' (a/R)^L (L+1-L a/R)/(R-a)^2 (M, M' total absolute masses), and the torque that torques_at_angle computes from the amplitudes of torque_lm by at most a times that, at every angle; for point arrays the exact values are those of point_matrix_gravity. The bound for the force is attained by two points on one ray, and tends to zero as L grows.",
  "all bodies (signed combinations of solids, points and holes), point arrays, displacements, angles and degrees", "all bodies and all degrees", [ML+":multipole_force", ML+":torque_lm", ML+":torques_at_angle", M+":qmoments", M+":Qmomentsb", G+":point_matrix_gravity"])
p("What display_points draws",
  "In the default mode display_points draws exactly the points of positive mass of each array in its (+) group and those of negative mass in its (-) group, all with size 50, and omits points of zero mass; with scale_mass all points of nonzero mass, negative ones included, are drawn in the (+) group with size 100 times the number of points times the signed mass (so a negative mass asks for a negative size) and the (-) groups are empty. In either mode every point of nonzero mass is drawn exactly once, and moving or turning an array changes no group.",
  "all pairs of arrays and both modes", "all arrays", [G+":display_points"])

p("Euler angles: body axes, any orientation, composition",
  "Turning a body by alpha about its own z axis, then by beta about the new place of its own y axis, then by gamma about the new place of its z axis equals turning it about the fixed axes in the opposite order, and is what rotate_qlm(q, alpha, beta, gamma) does to its inner moments (with -alpha, beta, -gamma to its outer moments). Every sequence of turns with rotate_point_array about any axes is one such turn with beta between 0 and pi, so one call of rotate_qlm gives the moments of a body in any orientation; two calls of rotate_qlm compose to one, the product of two wignerDl matrices is the matrix of the composed turn, and two triples of angles act alike on all moments exactly when they turn all points alike.",
  "all angles, axes, sequences of turns, arrays, moments and degrees", "all sequences of rotations", [R+":rotate_qlm", R+":wignerDl", G+":rotate_point_array"])

p("Bodies built from pieces",
  "The moments qlm.py returns for a body are the sum of those of the pieces it is cut into, whichever routines make the pieces, the masses being in proportion to the volumes: annuli and cylinders cut at a radius, annuli and cones cut along half planes through the axis (and an annulus without hole over a full turn is a cylinder whatever its phic), triangular prisms and tetrahedra cut through their axial edge, a rectangular prism into four isosceles prisms, a regular prism into N, a pyramid into four tetrahedra turned with rotate_qlm, prisms of equal base stacked with translate_qlm; and adding an angle to phic is rotate_qlm about z.",
  "all dimensions, masses and degrees the routines accept", "all dimensions and cuts", [Q+":annulus", Q+":cylinder", Q+":cone", Q+":tri_iso_prism", Q+":tri_prism", Q+":rect_prism", Q+":ngon_prism", Q+":tetrahedron2", Q+":pyramid", R+":rotate_qlm", T+":translate_qlm"])

p("Independent calculations of the same solid agree",
  "For all dimensions: qlmNum.platehole turned by theta about y (rotate_qlm) is qlmACH.platehole, and qlmNum.steinmetz turned by a right angle about z is qlmACH.cylhole2 (up to degree 5, as far as the closed forms are known); qlmNum.cone_mom with inner radius 0 is qlm.cone of the corresponding mass; qlmNum.trap_mom is the difference of the qlm.tri_iso_prism2 arrays of its two radii, and for inner radius 0 a single one.",
  "all densities, dimensions, angles and degrees in the documented ranges", "qlm_Test.py compares the implementations for one choice of dimensions each; the agreement is an identity between elliptic integrals, recursions and volume integrals",
  ["newt/qlmNum.py:platehole", "newt/qlmNum.py:steinmetz", "newt/qlmNum.py:cone_mom", "newt/qlmNum.py:trap_mom", "newt/qlmACH.py:platehole", "newt/qlmACH.py:cylhole2", "newt/qlm.py:cone", "newt/qlm.py:tri_iso_prism2", "newt/rotations.py:rotate_qlm"])

p("Rounding of rotations",
  "In floating point arithmetic of relative accuracy u (any rounding rule, any order of the sums, with or without fused multiplications) rotate_point_array copies the masses and returns every coordinate to within 5*relErr(u,20) (about 100 u) of the point's distance from the origin, for every angle, axis and length of the axis vector; it has a result exactly when the exact routine has (unless the axis is zero); distances between points are kept up to rounding; after n successive calls the points are off by at most ((1+9 relErr(u,20))^n - 1) of their distance, so stepping a turntable accumulates errors linearly; and the error of a force computed after a rotation is that of point_matrix_gravity plus the effect of this displacement.",
  "every u < 1, rounding rule, summation order, array, angle, axis, and every sequence of calls",
  "A test sees the rounding of one platform on a few angles; the bound is over all roundings, axes and lengths of call sequences.",
  [G+":rotate_point_array", G+":point_matrix_gravity"])

p("The field is conservative and source-free",
  "The force that gmmr2_array computes on a point mass is a differentiable function of its position wherever it is defined; its derivative is the gravity gradient sum G m m' (3 u u^T/r^5 - 1/r^3), which is symmetric (no curl) and traceless (no sources in empty space). For yukawa_array the gradient is symmetric and its trace is minus the energy over lmbd^2 (screened Poisson equation). Carrying a whole array along any smooth path that does not touch the other array, the work of the force of point_matrix_gravity is the difference of the potential energies at the ends, and zero around a closed path.",
  "every array, position, alpha, lmbd and every continuously differentiable path",
  "A finite difference at a few points, or the work along one path, does not show that the derivative has these symmetries everywhere.",
  [G+":gmmr2_array", G+":yukawa_array", G+":point_matrix_gravity", G+":translate_point_array"])
p("Gauss's law and Earnshaw's theorem",
  "The flux of the force that gmmr2_array gives on a mass m through any sphere that passes through no point of the array is -4 pi G m times the mass enclosed. The potential energy of two arrays, averaged over all displacements of the first by one distance smaller than the gap between them, is the energy without displacement; hence at each such distance there is a displacement that does not raise the energy: no arrangement holds a body in stable equilibrium.",
  "every array, centre and radius; every pair of arrays and distance smaller than the gap",
  "Both are statements about integrals over all directions.",
  [G+":gmmr2_array", G+":point_matrix_gravity", G+":translate_point_array"])
p("Moments of degree one and two",
  "The inner moments qmoments of degree 1 are the first mass moments of the array (mass times centre of mass, in the combinations z and x - iy with the standard constants), so they vanish exactly when the centre of mass is at the origin, and those of degree 2 are the components of the quadrupole tensor. The outer moments Qmomentsb of degree 1, times G, are the components of the force on a unit mass at the origin, and those of degree 2 the components of the gravity gradient there.",
  "every array (outer: with no point at the origin) and every order L >= 2",
  "A test checks numbers for one array; the identification of the complex moments with the physical vectors and tensors is an identity.",
  [M+":qmoments", M+":Qmomentsb", G+":gmmr2_array"])

p("The degrees double precision can reach",
  "With numbers that overflow above 2^1024 and underflow below 2^-1075 (and are otherwise exact): cgCoeff returns a finite number exactly if the product of its six factorials is representable, and then the Clebsch-Gordan coefficient; it is safe up to degree 35. translate_qlm and translate_Qlmb return the exact translated moments for arrays up to degree 49, translate_q2Q up to 26; from degree 50 (27) on the entries of order +-l are infinite or NaN whatever the moments are. Dl(l, ...) is finite, and right to 2^-40, exactly up to degree 85; the starting values of the recursion behind wignerDl and rotate_qlm are stored correctly up to degree 85, but from degree 89 on the one of highest order is silently stored as zero, although at a right angle it is at least 1/sqrt(2k). The coaxial matrices transl_newt_z_RR are right on their diagonal exactly up to degree 84, transl_newt_z_SS up to 85, and NaN beyond. The factor sqrt((l+m)!(l-m)!) of the closed-form solids (annulus, cone, the prisms, tetrahedra and the pyramid) is right up to degree 85 for all orders; where the product of factorials is not representable the entries of order +-m such a routine fills are infinite or NaN in both parts, whatever the dimensions: at every even degree from 86 on the entries of order +-l (for the N-gon if N divides l). The roots multipole_force takes are right up to degree 85; called with moments of degree 86 or more it returns no finite component, whatever the moments.",
  "every degree, order, angle, displacement and moment array", "A test tries some degrees and angles; that no smaller degree fails for any order, angle or moments, and that every larger one does, is a statement about all of them.",
  ["newt/clebschGordan.py:cgCoeff", "newt/translations.py:translate_qlm", "newt/translations.py:translate_Qlmb", "newt/translations.py:translate_q2Q", "newt/rotations.py:Dlmn", "newt/rotations.py:Dl", "newt/rotations.py:rotate_H_recurs", "newt/translationRecurs.py:transl_newt_z_RR", "newt/translationRecurs.py:transl_newt_z_SS", Q+":annulus", Q+":cone", Q+":tri_prism", Q+":rect_prism", Q+":ngon_prism", Q+":tetrahedron", Q+":pyramid", ML+":multipole_force"])

p("The lowest orders of the multipole force and torque in vector form",
  "With moments to degree 1, multipole_force is the total mass times the field of the other array at the origin, for every displacement, and torques_at_angle is the torque of that uniform field on the turned array. With moments to degree 2 they are the force (on the displaced array) and the torque (on the turned array) of the field that has the value and the gravity gradient of the true field at the origin. For a body whose centre of mass is at the origin degree 1 gives no torque, degree 2 the mass times the field as force, and a torque in which only the gravity gradient enters.",
  "every pair of arrays (the outer one with no point at the origin), displacement and angle", "An identity between complex multipole sums and vector formulas for all arrays; a test compares a few numbers.",
  [ML+":multipole_force", ML+":torque_lm", ML+":torques_at_angle", M+":qmoments", M+":Qmomentsb", G+":gmmr2_array"])

p("Shapes and the arrays they share",
  "In any program that makes shapes and arrays and calls rotate, translate and add in any order, with any arrays (also arrays taken from shapes), no two shapes ever share an array; a method call changes no other shape, no moment array and no array except that shape's own com. As long as the program does not write into a shape's com and does not pass a shape's own com to its translate, every call does exactly what it does when arrays are values, so the shapes describe the bodies they should. A reference to shape.com taken earlier follows translate but not rotate or add. shape.translate(shape.com, ...) moves the mesh and the moments by twice the vector but com by once, after which the shape describes no body.",
  "every program (sequence of constructors, array writes and method calls), any number of shapes and arrays", "Aliasing bugs appear only for particular sequences of calls and shared references; no finite set of programs covers them.",
  ["newt/shapes.py:Shape.translate", "newt/shapes.py:Shape.rotate", "newt/shapes.py:Shape.add", "newt/translations.py:translate_qlm", "newt/translations.py:translate_Qlmb", "newt/rotations.py:rotate_qlm"])

p("Rounding of the multipole moments",
  "If every operation and library function has a relative error of at most u and sph_harm of degree l an error of at most e(l), each moment that qmoments and Qmomentsb return, in whatever order numpy sums, differs from the exact one by at most the sum of |mass| r^l (outer: |mass| / r^(l+1)) times an explicit factor. The factor is proportional to u if all rows keep away from the z axis, but to sqrt(u) in general, because the polar angle is found as arccos(z/r); in double precision, up to degree 20 and 100000 rows, 1e-10 and 2e-6 of the largest harmonic. If the operations are rounded to nearest, z/r never exceeds one, so no NaN appears and a floating point call returns exactly when the exact one does. The loss is real: for a unit mass at height one and 2^-27 off the axis the computed q11 is zero (up to 4 e(1)) while the exact one is sqrt(3/8pi) 2^-27.",
  "every array, degree, order, accuracy u <= 1/4, run and summation order; every precision for the absence of NaN", "Rounding errors depend on every bit of every coordinate and on the summation order of the machine; tests sample a few inputs on one machine.",
  [M+":qmoments", M+":Qmomentsb"])

p("Rounding of the torque from multipole moments",
  "In floating point arithmetic of relative accuracy u, with complex products fused or not and columns summed in any order, torque_lm followed by torques_at_angle differs from the exact result by at most an explicit factor, about (3L + 17 + L|angle|) u, times four times the sum of the amplitudes taken without sign. The whole chain from two point arrays (qmoments, Qmomentsb, torque_lm, torques_at_angle, all in floating point), one within r of the origin and one beyond R > r, gives the Newtonian torque about z on the turned array up to G M M' (r times the truncation error of degree L + 8 r R/(R - r)^3 times an explicit rounding budget); in double precision, up to degree 20 and 100000 rows in all, the budget is at most 4e-6 with sph_harm accurate to 1e-7, and 1e-10 with sph_harm accurate to 1e-12 and rows away from the z axis. Hence it also agrees with the torque that point_matrix_gravity computes in floating point, up to the sum of the two errors. torques_at_angle returns exactly when the exact call does, and without rounding the result is the exact one.",
  "every pair of arrays, degree, angle, accuracy u <= 1/4, run, summation order and use of fused products", "Truncation and rounding errors interact over thousands of operations; a test compares two numbers for one pair of bodies on one machine.",
  [ML+":torque_lm", ML+":torques_at_angle", M+":qmoments", M+":Qmomentsb", G+":point_matrix_gravity"])

p("Rounding of the force from multipole moments",
  "In floating point arithmetic of relative accuracy u, with complex products fused or not and sums in any order, force_basis returns each derivative of the regular solid harmonics of degree l up to about 7 l u times an explicit majorant, and multipole_force returns each component of the force between two sets of moments up to an explicit factor times the force without regard to sign; in double precision, up to degree 20, the factor is at most 1e-11. The whole chain from two point arrays (qmoments, Qmomentsb, multipole_force with any displacement v, all in floating point), one within r of the origin and one beyond R > r + |v|, gives the Newtonian force on the displaced array up to the truncation error of degree L plus an explicit rounding budget, for v = 0 G M M' 15/2 (R + 3 r)/(R - r)^3 times at most 4e-6 in double precision up to degree 20 and 100000 rows (1e-10 away from the z axis with sph_harm accurate to 1e-12). Hence it agrees with the force that point_matrix_gravity computes in floating point up to the sum of the errors. The floating point call returns exactly when the exact one does, which is always unless L = 0 and there is no displacement, and without rounding the result is the exact one.",
  "every pair of arrays and of moment sets, degree, displacement, accuracy u <= 1/4, run, summation order and use of fused products", "A recursion over all degrees and a five-fold sum; rounding errors depend on every bit of the input, and a test compares two numbers for one pair of bodies on one machine.",
  [ML+":force_basis", ML+":multipole_force", M+":qmoments", M+":Qmomentsb", G+":point_matrix_gravity"])

p("Rounding of Clebsch-Gordan coefficients and of translated moments",
  "In floating point arithmetic of relative accuracy u: cgCoeff returns exactly zero where the coefficient is not allowed and otherwise Racah's value up to an explicit factor (about 24 u log((j1+j2+J+1)!) plus one u per operation) times Racah's formula without signs; the coefficients of the largest and smallest J, the only ones translations use, have that small error relative to themselves. translate_qlm, translate_Qlmb and translate_q2Q return the exact translation of the given moments up to an explicit factor times the translation without regard to sign, which for the moments of an array within r (outside R) is at most (2L+1) times the largest moment an array of that mass within r + d (outside R - d, d - r) can have. So qmoments followed by translate_qlm, all in floating point, gives the moments of the moved array up to the two errors. In double precision up to degree 10 the factor is 4e-12 for a displacement more than 6 degrees off the z axis (2e-6 near it, because of arccos), with sph_harm accurate to 1e-13 (1e-7). Rounded to nearest, no call gives a NaN except translate_q2Q without displacement; without rounding the results are the exact ones.",
  "every set of moments, point array, displacement, degree, order, quantum numbers, accuracy u and run", "The coefficients come from exponentials of differences of logarithms of factorials, whose errors grow with the degree, and the terms of a translation cancel; a test compares a few values on one machine.",
  ["newt/clebschGordan.py:cgCoeff", "newt/translations.py:translate_qlm", "newt/translations.py:translate_Qlmb", "newt/translations.py:translate_q2Q", M+":qmoments", M+":Qmomentsb"])

p("Moving a body by way of its moments, in floating point",
  "All in floating point arithmetic of relative accuracy u: the moments of an array within r of the origin, moved by translate_qlm through v, with the outer moments of an array beyond R > r + |v|, give through torque_lm and torques_at_angle the Newtonian torque about z on the array moved by v and then turned, and through multipole_force without displacement the Newtonian force on the moved array, up to G M M' times the truncation error of degree L at radius r + |v| plus an explicit rounding budget (in double precision up to degree 10 and 100000 rows a relative 2e-10 away from the z axis with sph_harm accurate to 1e-13, else 7e-6, times (2L+1) times an explicit function of r + |v| and R). Hence moving the moments, displacing multipole_force, and moving the points by translate_point_array and summing with point_matrix_gravity (also in floating point) agree with each other up to the sum of their errors.",
  "every pair of arrays, displacement, degree, angle, accuracy u <= 1/4, run, summation order and use of fused products", "Three chains of routines whose truncation and rounding errors accumulate; a test compares numbers for one pair of bodies on one machine.",
  ["newt/translations.py:translate_qlm", ML+":torque_lm", ML+":torques_at_angle", ML+":multipole_force", M+":qmoments", M+":Qmomentsb", G+":translate_point_array", G+":point_matrix_gravity"])

p("Rounding of the Wigner matrices and of rotated moments",
  "In floating point arithmetic of relative accuracy u: Dl returns each entry of the rotation matrix of degree l up to an explicit factor, about (3l + 24 + 2l(|alpha| + |gamma|)) u, times Wigner's sum taken without signs, which is at most 2^l (so in double precision up to degree 10 and angles up to two turns no entry is wrong by more than 1.5e-10). rotate_qlm_Ds with these matrices, however the scalar products are summed or fused, returns what rotate_qlm returns in exact arithmetic (by another algorithm) up to an explicit factor, 1.6e-13 in double precision, times at most 2^l times the sum of the moduli of the moments of that degree; with conj_trans it returns the inverse rotation, and rotating there and back returns the moments up to the square of the factor less one times (2l+1) 4^l that sum. The monopole and entries outside of the triangle are never changed, nor anything if the number of matrices does not match. qmoments followed by the rotation gives the moments of the array rotated by gamma about z, beta about y and alpha about z, and with Qmomentsb, torque_lm and torques_at_angle the Newtonian torque on that array, up to the truncation error and an explicit rounding budget. Every call returns, and without rounding the results are the exact ones.",
  "every degree, order, set of angles, set of moments, pair of arrays, accuracy u, run, summation order and use of fused products", "The alternating sums cancel more and more as the degree grows; a test compares a few angles and degrees on one machine.",
  [R+":Dlmn", R+":Dl", R+":rotate_qlm_Ds", R+":rotate_qlm", M+":qmoments", M+":Qmomentsb", ML+":torque_lm", ML+":torques_at_angle"])

p("Rounding of the recursive Wigner matrices",
  "In floating point arithmetic of relative accuracy u <= 1/1000, with associated Legendre functions accurate to eps (relative to their largest value) and computed cosines that do not exceed one, for an angle in [0, pi]: every entry of degree n that rotate_H_recurs returns differs from the exact one by at most 3^n (3 s + 35 u), where s is the error of the starting values: about eps plus 2 u log((2n+2)!) plus n + 1 times the error of the angle that the rounded cosine stands for. That error of the angle is at most pi sqrt(u/2), and at most pi u |cot beta| once sin beta exceeds that. wignerDl, which first reduces any angle beta modulo 2 np.pi and reflects it, returns each entry of degree l, and rotate_qlm each moment of degree l, up to an explicit factor built from that and from (l + 1) (2 |beta| + 22) u for the reduction (for moments times the sum of the moduli of the moments of that degree), provided that np.pi is accurate to u, not larger than pi and no sum is rounded across it or its double, as in double precision; the monopole and entries outside of the triangle are returned unchanged; wignerDl and Dl agree up to the sum of their errors. The moments of point masses, computed and then rotated by rotate_qlm, are those of the masses rotated by rotate_point_array up to such a factor, and the torque from them through torque_lm and torques_at_angle is that of point_matrix_gravity on the rotated and turned masses up to an explicit truncation error and an explicit rounding error. In double precision the entries are accurate to 3e-5 up to degree 4 for every angle, and to 7e-9 up to degree 10 if sin beta >= 1/2. The loss near the poles is real: for 0 < beta <= 2^-27, with cosines rounded to nearest, all entries with exactly one order equal to zero are exactly zero, so rotate_qlm does not tilt a body of revolution about z at all, although exactly q11 becomes sin(beta)/sqrt(2) times q10. Calls return for all angles, and without rounding (and with np.pi exact) the result is the exact one.",
  "every degree, order, set of moments, set of three angles, accuracy u <= 1/1000, run, summation order and use of fused products", "A two-index recursion that amplifies the error of its starting values from row to row; a test compares a few angles and degrees on one machine, and agreement away from the poles says nothing about small tilts.",
  [R+":rotate_H_recurs", R+":copy_tri", R+":dnm", R+":bnm", R+":anm", R+":rfac", R+":wignerDl", R+":rotate_qlm", R+":Dl"])

p("Rounding of the closed-form moments of spheres, cylinders, annular sections and cones",
  "In floating point arithmetic of relative accuracy u, every entry that annulus returns differs from the exact moment of the uniform annular section (an integral over the solid), and every entry that cone returns from that of the section of a cone, by at most an explicit growth factor less one times an explicit size, the closed form with every subtraction replaced by an addition; an annulus needs u (Ro^2 + Ri^2) < Ro^2 - Ri^2, so its wall must not be too thin. An entry of cylinder has the relative error of 8 + 11 (l/2) + L/2 roundings with respect to its closed form without subtractions (1.6e-14 in double precision up to degree 10), and the entries of odd degree or of nonzero order are exactly zero. The one entry of sphere that does not vanish has the relative error of three roundings and the others are exactly zero. Calls are rejected according to the parameters and the machine's pi alone, and with such a wall no division by a vanishing thickness occurs. Runs exist. In double precision, up to degree 10, for walls with Ro^2 + Ri^2 <= 10 (Ro^2 - Ri^2) and centre angles of at most 7, the factors are below 1.5e-13 (annulus) and 2.4e-13 (cone).",
  "every degree, order, mass and shape of the solid, accuracy u, run, order of the sums and accuracy of the library's exponential, logarithm of the factorial, sine and cosine", "The cancellation between inner and outer radius grows without bound as the wall gets thinner; a test compares a few shapes on one machine.",
  [Q+":sphere", Q+":cylinder", Q+":annulus", Q+":cone"])

with open("/verif/properties.jsonl", "w") as f:
    for r in P:
        f.write(json.dumps(r) + "\n")
print(len(P))
