{"id": "C01", "title": "Newton's third law for gravity", "statement": "For any two point-mass arrays with no coincident pair, point_matrix_gravity(A,B) and point_matrix_gravity(B,A) return exactly opposite forces and exactly opposite torques about the origin.", "quantifier": "all pairs of point arrays of any length, any real masses and positions without a coincident pair", "why_tests_cant": "a test checks a handful of arrays; the law must hold for every array length and geometry", "anchors": ["newt/glib.py:point_matrix_gravity", "newt/glib.py:gmmr2_array"]}
{"id": "C02", "title": "Newton's third law for the Yukawa force", "statement": "The same action/reaction law for point_matrix_yukawa with any coupling alpha and any length scale lmbd.", "quantifier": "all point-array pairs without coincidence, all alpha, all nonzero lmbd", "why_tests_cant": "continuum of couplings, ranges and geometries", "anchors": ["newt/glib.py:point_matrix_yukawa", "newt/glib.py:yukawa_array"]}
{"id": "C03", "title": "Superposition of sources and of test masses", "statement": "Force and torque of a concatenation of arrays is the sum of the forces and torques of the pieces, in either argument; the order of the points never matters; and scaling the masses of either argument scales the result.", "quantifier": "all arrays, all splits, all permutations, all scale factors", "why_tests_cant": "unbounded number of splits/permutations", "anchors": ["newt/glib.py:point_matrix_gravity", "newt/glib.py:point_matrix_yukawa"]}
{"id": "C04", "title": "Translation covariance of force and torque", "statement": "Translating both arrays by the same vector d with translate_point_array leaves the force unchanged and changes the torque exactly by d x F.", "quantifier": "all arrays, all translation vectors", "why_tests_cant": "continuum of translations", "anchors": ["newt/glib.py:translate_point_array", "newt/glib.py:point_matrix_gravity"]}
{"id": "C05", "title": "Rotation covariance of force and torque", "statement": "Rotating both arrays by the same angle about the same non-zero axis with rotate_point_array rotates the returned force and torque by that same rotation.", "quantifier": "all arrays, angles, non-zero axes", "why_tests_cant": "continuum of axes and angles", "anchors": ["newt/glib.py:rotate_point_array", "newt/glib.py:point_matrix_gravity"]}
{"id": "C06", "title": "rotate_point_array is a proper rotation about the given axis", "statement": "For every non-zero axis, rotate_point_array keeps every mass, preserves all inner products (hence distances), preserves orientation, fixes every point of the axis, depends only on the direction of the axis vector (not its length), and turns a vector perpendicular to the axis by exactly theta counter-clockwise. With a zero axis vector the result is undefined (NaN).", "quantifier": "all angles, axes, points", "why_tests_cant": "continuum of axes, angles and points", "anchors": ["newt/glib.py:rotate_point_array"]}
{"id": "C07", "title": "Rotations about one axis compose; translations compose", "statement": "rotate_point_array by a then by b about the same axis equals rotating by a+b; rotating by 0 or 2*pi is the identity; translate_point_array by u then by v equals translating by u+v and translating back by -u restores the array.", "quantifier": "all arrays, angles, vectors, any length of sequence", "why_tests_cant": "unbounded sequences of moves", "anchors": ["newt/glib.py:rotate_point_array", "newt/glib.py:translate_point_array"]}
{"id": "C08", "title": "Point forces are minus the gradient of the potential", "statement": "The force reported on a point mass is minus the gradient, with respect to that point's position, of the Newtonian potential energy -G m1 m2/r summed over the sources; the Yukawa force is minus the gradient of -alpha G m1 m2 exp(-r/lmbd)/r.", "quantifier": "all arrays, all field points off the sources, all lmbd != 0", "why_tests_cant": "a derivative identity at every point of space", "anchors": ["newt/glib.py:gmmr2_array", "newt/glib.py:yukawa_array"]}
{"id": "C09", "title": "Coincident points poison the whole result", "statement": "gmmr2_array, yukawa_array and the matrix versions give a defined (non-NaN) result exactly when no point of one array coincides with a point of the other; a single coincident pair, even of zero mass, makes every component undefined.", "quantifier": "all arrays", "why_tests_cant": "needs every placement of a coincident pair", "anchors": ["newt/glib.py:gmmr2_array", "newt/glib.py:point_matrix_gravity"]}
{"id": "C10", "title": "Yukawa reduces to gravity", "statement": "With alpha = 1 the Yukawa force tends to the Newtonian force as lmbd tends to infinity, and for every finite lmbd > 0 the Yukawa force on a pair is parallel to and strictly weaker than the Newtonian one.", "quantifier": "all arrays, limit over all lmbd", "why_tests_cant": "a limit statement", "anchors": ["newt/glib.py:yukawa_array", "newt/glib.py:gmmr2_array"]}
{"id": "C11", "title": "qmoments computes the regular solid harmonic sums", "statement": "For a point array without a point at the origin, entry (l,m) of qmoments(L, A) equals sum_i m_i r_i^l conj(Y_lm(theta_i,phi_i)), equivalently an explicit homogeneous polynomial in the Cartesian coordinates, for every l <= L and |m| <= l; entries with |m| > l are zero; the array satisfies q(l,-m) = (-1)^m conj(q(l,m)).", "quantifier": "all L, all l, m, all arrays", "why_tests_cant": "all degrees and orders; every point of space including poles and the half-plane phi = 0", "anchors": ["newt/pg2Multi.py:qmoments"]}
{"id": "C12", "title": "qmoments is monotone in the cut-off", "statement": "The degree-l moments do not depend on the requested maximum L: every entry of qmoments(L, A) with l <= L equals the entry of qmoments(L', A) for L' >= L.", "quantifier": "all L <= L'", "why_tests_cant": "unbounded cut-offs", "anchors": ["newt/pg2Multi.py:qmoments", "newt/pg2Multi.py:Qmomentsb"]}
{"id": "C13", "title": "Points at the origin in qmoments", "statement": "qmoments with L >= 1 fails with an index error exactly when some point that is not at the origin comes after a point at the origin in the array; otherwise it returns the correct moments. (The code indexes the already-filtered angle arrays again.)", "quantifier": "all arrays, all orders of points", "why_tests_cant": "depends on every interleaving of origin and non-origin points", "anchors": ["newt/pg2Multi.py:qmoments"]}
{"id": "C14", "title": "Moments are additive, linear in mass and homogeneous", "statement": "qmoments and Qmomentsb of a concatenation are the sums of the moments, scaling masses scales the moments, and scaling all coordinates by s scales q_lm by s^l and Q_lm by s^-(l+1).", "quantifier": "all arrays, scale factors, degrees", "why_tests_cant": "continuum", "anchors": ["newt/pg2Multi.py:qmoments", "newt/pg2Multi.py:Qmomentsb"]}
{"id": "C15", "title": "qmoment and Qmomentb agree with the array versions", "statement": "For arrays with no point at the origin, qmoment(l,m,A) equals entry (l,m) of qmoments(L,A) and Qmomentb(l,m,A) that of Qmomentsb(L,A), for every L >= l and every |m| <= l, negative m included.", "quantifier": "all l, m, L, arrays", "why_tests_cant": "all orders", "anchors": ["newt/pg2Multi.py:qmoment", "newt/pg2Multi.py:Qmomentb"]}
{"id": "C16", "title": "Outer moments: definition and origin behaviour", "statement": "Entry (l,m) of Qmomentsb(L, A) is sum_i m_i Y_lm(theta_i,phi_i)/r_i^(l+1); if any point of the array is at the origin the whole array returned is zero.", "quantifier": "all L, arrays", "why_tests_cant": "all degrees and arrays", "anchors": ["newt/pg2Multi.py:Qmomentsb", "newt/pg2Multi.py:Qmomentb"]}
{"id": "C17", "title": "imoments uses the wrong Bessel order", "statement": "imoments(L, lmbd, A) evaluates the modified spherical Bessel function of order L (not l) for every degree 1 <= l <= L, so it agrees with imoment only at l = 0 and l = L in general.", "quantifier": "all L, l, lmbd, arrays", "why_tests_cant": "needs all degrees", "anchors": ["newt/pg2Multi.py:imoments", "newt/pg2Multi.py:imoment"]}
{"id": "C18", "title": "Translating inner moments equals moments of the translated body", "statement": "translate_qlm(qmoments(L, A), d) equals qmoments(L, translate_point_array(A, d)) in every entry, exactly, for every L.", "quantifier": "all L, arrays, translation vectors", "why_tests_cant": "all degrees, all vectors including the poles", "anchors": ["newt/translations.py:translate_qlm", "newt/pg2Multi.py:qmoments", "newt/glib.py:translate_point_array"]}
{"id": "C19", "title": "Inner translations compose and are invertible", "statement": "For moment arrays obeying the reality symmetry, translating by u and then by v equals translating by u+v, and translating by d then -d restores the moments; a zero vector returns the same array; the monopole entry is never changed.", "quantifier": "all L, all symmetric moment arrays, all vectors", "why_tests_cant": "exact for every truncation order", "anchors": ["newt/translations.py:translate_qlm"]}
{"id": "C20", "title": "Outer translations compose", "statement": "translate_Qlmb by u then by v equals translate_Qlmb by u+v for every truncated symmetric array, and is inverted by -u.", "quantifier": "all L, arrays, vectors", "why_tests_cant": "exact for every truncation order", "anchors": ["newt/translations.py:translate_Qlmb"]}
{"id": "C21", "title": "Inner and outer translation are adjoint", "statement": "The interaction sum over l <= L of q_lm Q_lm/(2l+1) is the same whether the inner body is translated by d (translate_qlm) or the frame of the outer moments is moved by -d (translate_Qlmb).", "quantifier": "all L, arrays, vectors", "why_tests_cant": "all degrees", "anchors": ["newt/translations.py:translate_qlm", "newt/translations.py:translate_Qlmb"]}
{"id": "C22", "title": "Clebsch-Gordan selection rules", "statement": "cgCoeff and cgCoeff2 return 0 whenever |m1| > j1, |m2| > j2, |M| > J, J > j1+j2, J < |j1-j2| or M != m1+m2.", "quantifier": "all integer inputs", "why_tests_cant": "unbounded integers", "anchors": ["newt/clebschGordan.py:cgCoeff", "newt/clebschGordan.py:cgCoeff2"]}
{"id": "C23", "title": "The two Clebsch-Gordan implementations agree", "statement": "cgCoeff and cgCoeff2 return the same value for every integer input.", "quantifier": "all integers", "why_tests_cant": "unbounded", "anchors": ["newt/clebschGordan.py:cgCoeff", "newt/clebschGordan.py:cgCoeff2"]}
{"id": "C24", "title": "Clebsch-Gordan reflection symmetry and stretched values", "statement": "cgCoeff(j1,j2,-m1,-m2,J,-M) = (-1)^(J-j1-j2) cgCoeff(j1,j2,m1,m2,J,M), and for J = j1+j2 and J = j2-j1 the value has the textbook closed form.", "quantifier": "all integers", "why_tests_cant": "unbounded", "anchors": ["newt/clebschGordan.py:cgCoeff"]}
{"id": "C25", "title": "Rotating moments equals moments of the rotated body", "statement": "rotate_qlm(qmoments(L,A), alpha, beta, gamma) equals qmoments of the array rotated by gamma about z, then beta about y, then alpha about z, in every entry.", "quantifier": "all L, all arrays qmoments accepts, all real angles", "why_tests_cant": "all degrees, all angles; the recursion must be right at every degree", "anchors": ["newt/rotations.py:rotate_qlm", "newt/rotations.py:wignerDl", "newt/rotations.py:rotate_H_recurs"]}
{"id": "C26", "title": "Wigner matrices are unitary", "statement": "Dlmn and wignerDl matrices are unitary for every degree, so rotate_qlm preserves sum_m |q_lm|^2 for each l.", "quantifier": "all l, angles", "why_tests_cant": "all degrees", "anchors": ["newt/rotations.py:wignerDl", "newt/rotations.py:Dlmn"]}
{"id": "C27", "title": "Rotations by zero and about z", "statement": "rotate_qlm(q,0,0,0) returns the input moments, and rotate_qlm(q,alpha,0,gamma) multiplies q_lm by exp(-i m (alpha+gamma)).", "quantifier": "all L, q, alpha, gamma", "why_tests_cant": "all degrees", "anchors": ["newt/rotations.py:rotate_qlm"]}
{"id": "C28", "title": "Degree-zero Wigner call fails", "statement": "wignerDl and dlmn called with l = 0 raise (the recursion returns a scalar that is then indexed), whatever the angles; hence torque with minimum cut-off 0 and the recursive translations of monopole-only arrays off the z axis also raise, while rotate_qlm works for every L including 0.", "quantifier": "all angles", "why_tests_cant": "every angle must fail", "anchors": ["newt/rotations.py:wignerDl", "newt/rotations.py:rotate_H_recurs", "newt/multipoleLib.py:torque"]}
{"id": "C29", "title": "Recursive translation agrees with the Clebsch-Gordan translation", "statement": "translationRecurs.translate_qlm and translations.translate_qlm return the same array for every symmetric moment array of degree >= 1 and every translation vector.", "quantifier": "all L >= 1, symmetric arrays, vectors", "why_tests_cant": "all degrees; two very different algorithms", "anchors": ["newt/translationRecurs.py:translate_qlm", "newt/translations.py:translate_qlm"]}
{"id": "C30", "title": "Torque amplitudes: reality", "statement": "For moment arrays with the reality symmetry, the cosine amplitudes returned by torque_lm are real and the sine amplitudes purely imaginary.", "quantifier": "all L, symmetric arrays", "why_tests_cant": "all degrees", "anchors": ["newt/multipoleLib.py:torque_lm"]}
{"id": "C31", "title": "Torque versus angle is minus the derivative of the energy", "statement": "torques_at_angle(torque_lm(q,Q), phi) summed over l is minus the derivative with respect to phi of the interaction energy of the inner body turned by phi about z.", "quantifier": "all L, symmetric arrays, angles", "why_tests_cant": "functional identity in phi for all degrees", "anchors": ["newt/multipoleLib.py:torque_lm", "newt/multipoleLib.py:torques_at_angle", "newt/multipoleLib.py:torque"]}
{"id": "C32", "title": "embed_qlm keeps moments", "statement": "embed_qlm(q, LNew) keeps every moment of degree <= min(L, LNew), pads with zeros, is the identity when LNew = L, and embedding up then back down restores the array.", "quantifier": "all L, LNew, arrays", "why_tests_cant": "all sizes", "anchors": ["newt/multipoleLib.py:embed_qlm"]}
{"id": "C33", "title": "Multipole force is minus the gradient of the translated energy", "statement": "multipole_force(L,q,Q,dx,dy,dz) equals minus the gradient, with respect to the displacement of the inner body taken at (dx,dy,dz), of the multipole energy of the displaced inner moments with Q; multipole_force_m sums over m to multipole_force; the call fails exactly for L = 0 at zero displacement.", "quantifier": "all L, moments", "why_tests_cant": "gradient identity at all degrees", "anchors": ["newt/multipoleLib.py:multipole_force", "newt/multipoleLib.py:force_basis"]}
{"id": "C34", "title": "The multipole expansion converges to point gravity", "statement": "For an inner array strictly inside and an outer array strictly outside a sphere around the origin, the multipole energy -4 pi G sum_{l<=L} q_lm Q_lm/(2l+1) from qmoments and Qmomentsb converges, as L grows, to the pairwise Newtonian energy.", "quantifier": "all separated array pairs; the limit over L", "why_tests_cant": "a limit over all degrees", "anchors": ["newt/pg2Multi.py:qmoments", "newt/pg2Multi.py:Qmomentsb", "newt/multipoleLib.py:multipole_force"]}
{"id": "C35", "title": "Monopole of every solid is its mass", "statement": "The (0,0) entry returned by each constructor of qlm.py equals density times volume (or mass) over sqrt(4 pi).", "quantifier": "all L and all shape parameters", "why_tests_cant": "continuum of parameters", "anchors": ["newt/qlm.py:annulus", "newt/qlm.py:cone", "newt/qlm.py:rect_prism", "newt/qlm.py:tri_prism", "newt/qlm.py:tetrahedron"]}
{"id": "C36", "title": "Solid moments equal volume integrals", "statement": "Each constructor in qlm.py returns in entry (l,m) the integral over the documented solid of density r^l conj(Y_lm), for all L.", "quantifier": "all L, parameters", "why_tests_cant": "all degrees and parameters", "anchors": ["newt/qlm.py:annulus", "newt/qlm.py:cone", "newt/qlm.py:rect_prism", "newt/qlm.py:tri_iso_prism"]}
{"id": "C37", "title": "Moments of solids obey the reality symmetry and the solid's discrete symmetry", "statement": "Every array from qlm.py satisfies q(l,-m) = (-1)^m conj q(l,m); entries vanish where l+m is odd for solids symmetric under z -> -z; N-fold symmetric solids only have m divisible by N.", "quantifier": "all L, parameters", "why_tests_cant": "all degrees", "anchors": ["newt/qlm.py:annulus", "newt/qlm.py:rect_prism", "newt/qlm.py:ngon_prism"]}
{"id": "C38", "title": "Shape bookkeeping: mass and centre of mass", "statement": "Adding shapes sums mass and moments and puts the centre of mass at the mass-weighted mean; translating a shape by a vector moves the centre of mass by it and leaves mass unchanged; over any sequence of translate/rotate/add operations on any number of objects, each object's mass, centre of mass and inner moments are those of the body the same motions and unions make of the original bodies. New objects start with correct mass and moments; their centre of mass is correct for centred solids only (for Cone, Tetrahedron, Pyramid, TriPrism and annular sectors it stays at the origin). A zero total mass loses the centre of mass; adding objects of different lmax leaves the higher degrees incomplete.", "quantifier": "all sequences of operations", "why_tests_cant": "unbounded histories", "anchors": ["newt/shapes.py:Shape.add", "newt/shapes.py:Shape.translate", "newt/shapes.py:Shape.rotate"]}
{"id": "C39", "title": "Outer-to-inner translation fails late", "statement": "Shape.translate on an outer shape with inner=True raises, but only after the centre of mass and the mesh were already moved, leaving the object half-updated; likewise calls on objects without a mesh fail half-way, while combining inner and outer objects fails with no change.", "quantifier": "all shapes and vectors", "why_tests_cant": "an error path state for every history", "anchors": ["newt/shapes.py:Shape.translate"]}
{"id": "C40", "title": "MULTI file reader: command semantics", "statement": "read_mpc executes the commands of a .mpc file in order with the register semantics (create/add/rotate/translate/load/zeroqlm/gettotal/puttotal/end); comments and blank lines are ignored except for the add look-ahead; the block of an unknown shape is passed over up to the next line with create or end (IndexError if there is none); every known shape, including platehole (degrees up to 5 only, zero above) and cylhole, has the moments of the region it names; commands before any create fail; a NaN in the total survives zeroqlm; the loop ends on every file.", "quantifier": "all files", "why_tests_cant": "unbounded programs", "anchors": ["newt/read_multiFor.py:read_mpc"]}
{"id": "C41", "title": "Moment-file readers place each line at its (l,m)", "statement": "read_gsq and read_gbq put the k-th data line at the (l,m) of the triangular order l = 0,1,.., m = 0..l and fill negative m by the reality symmetry.", "quantifier": "all files, all degrees", "why_tests_cant": "unbounded lines", "anchors": ["newt/read_multiFor.py:read_gsq", "newt/read_multiFor.py:read_gbq"]}
{"id": "C42", "title": "Point-mass solids carry the requested mass", "statement": "Every generator of glibShapes.py that returns at least one point returns masses that sum to the requested mass, except trapezoid with beta >= pi/2, which returns massless points at the origin.", "quantifier": "all parameters and grid sizes", "why_tests_cant": "all sizes", "anchors": ["newt/glibShapes.py:annulus", "newt/glibShapes.py:rectangle", "newt/glibShapes.py:wedge", "newt/glibShapes.py:tri_prism"]}
{"id": "C43", "title": "Point-mass solids lie inside the solid", "statement": "All points returned by the generators of glibShapes.py lie in the documented solid (rectangle: for nx = ny; otherwise points can fall outside). Some generators reach only a part of it: sphere only the cube of side R, tri_prism only y > 0, pyramid half the base, platehole a narrower hole.", "quantifier": "all parameters and grid sizes", "why_tests_cant": "all sizes", "anchors": ["newt/glibShapes.py:annulus", "newt/glibShapes.py:cone", "newt/glibShapes.py:spherical_random_shell"]}
{"id": "C44", "title": "Point-mass rectangle is centred only for equal grids", "statement": "glibShapes.rectangle centres the y grid with (nx-1)/2 instead of (ny-1)/2, so its centre of mass is at y = (ny-nx)/2 * y/ny; it is centred iff nx = ny.", "quantifier": "all parameters", "why_tests_cant": "all grid sizes", "anchors": ["newt/glibShapes.py:rectangle"]}
{"id": "C45", "title": "The torque about an axis is minus the energy derivative under rotation", "statement": "The component along a unit axis of the torque returned by point_matrix_gravity (point_matrix_yukawa) is minus the derivative, with respect to the angle passed to rotate_point_array about that axis, of the pair potential energy of the rotated array.", "quantifier": "all array pairs without coincident points, all axes", "why_tests_cant": "a derivative identity for every configuration", "anchors": ["newt/glib.py:point_matrix_gravity", "newt/glib.py:rotate_point_array"]}
{"id": "C46", "title": "Recursive and explicit Wigner matrices agree", "statement": "Every entry of every matrix returned by wignerDl(L, alpha, beta, gamma) equals the corresponding entry of Dl(l, alpha, beta, gamma), for every real angle (also outside [0, pi]); dlmn(L, beta) returns the same matrices at alpha = gamma = 0.", "quantifier": "all L >= 1, all degrees, entries and angles", "why_tests_cant": "two independent algorithms must agree at every degree and angle", "anchors": ["newt/rotations.py:wignerDl", "newt/rotations.py:dlmn", "newt/rotations.py:Dl", "newt/rotations.py:rotate_H_recurs"]}
{"id": "C47", "title": "Rotations are invertible and keep arrays valid", "statement": "rotate_qlm(rotate_qlm(q,a,b,c),-c,-b,-a) = q; a rotated valid moment array is valid (reality symmetry, empty corners); rotate_qlm_Ds with wignerDl matrices is rotate_qlm, with conj_trans the reversed rotation; a matrix list of the wrong length leaves the moments unchanged.", "quantifier": "all arrays and angles", "why_tests_cant": "all degrees and angles", "anchors": ["newt/rotations.py:rotate_qlm", "newt/rotations.py:rotate_qlm_Ds"]}
{"id": "C48", "title": "Rotations and translations intertwine", "statement": "Translating inner moments by d and then rotating them gives the same array as rotating first and then translating by the vector d rotated with rotate_point_array through the same three angles.", "quantifier": "all valid arrays, vectors and angles", "why_tests_cant": "all degrees, vectors and angles", "anchors": ["newt/rotations.py:rotate_qlm", "newt/translations.py:translate_qlm"]}
{"id": "C49", "title": "Inner-to-outer translation of a point mass is exact", "statement": "translate_q2Q of the inner moments of a point mass at the origin gives, to every degree, exactly the outer moments of that point mass moved to d.", "quantifier": "all L, masses and non-zero d", "why_tests_cant": "all degrees", "anchors": ["newt/translations.py:translate_q2Q"]}
{"id": "C50", "title": "torque() is the torque of the composed motion", "statement": "torque(qlm, Qlm, euler, rvec) in its 'inner-inner' mode, and in its 'inner-outer' mode for displacements off the +z axis, returns amplitudes whose value at an angle phi (torques_at_angle) is the z torque of torque_lm for the moments turned by phi about z, rotated by the Euler angles and translated by rvec with rotate_qlm, translate_qlm and translate_q2Q.", "quantifier": "all L >= 1, moments, angles and off-axis displacements", "why_tests_cant": "all degrees, positions and moments", "anchors": ["newt/multipoleLib.py:torque"]}
{"id": "C51", "title": "On-axis inner-outer torque uses column-reversed moments", "statement": "torque(...) in 'inner-outer' mode with the displacement along the +z axis does not exchange the orders m and -m of the outer moments: it returns the torque of the column-reversed translated moments, and there is a valid input on which the torque has the wrong sign.", "quantifier": "all L, moments, on-axis displacements", "why_tests_cant": "a defect visible only on a measure-zero branch", "anchors": ["newt/multipoleLib.py:torque"]}
{"id": "C52", "title": "Outer-outer torque translates by the mirrored vector", "statement": "torque(...) in 'outer-outer' mode returns the torque for the outer body moved by the displacement with its y component mirrored; there is a valid input on which the torque has the wrong sign.", "quantifier": "all L, moments, displacements", "why_tests_cant": "all degrees and positions", "anchors": ["newt/multipoleLib.py:torque"]}
{"id": "C53", "title": "Outer moments rotate with negated azimuths", "statement": "The outer moments of an array turned by rotate_point_array through the three Euler rotations are rotate_qlm(Q, -alpha, beta, -gamma); with the inner convention (alpha, beta, gamma) the array turns the wrong way.", "quantifier": "all arrays off the origin, all L, all angles", "why_tests_cant": "all degrees and angles", "anchors": ["newt/rotations.py:rotate_qlm", "newt/pg2Multi.py:Qmomentsb"]}
{"id": "C54", "title": "The multipole force converges to the direct force", "statement": "If the displaced inner array lies within radius a and the outer array outside radius b > a, then multipole_force(L, qmoments(L, A), Qmomentsb(L, B), d) tends, as L grows, to the force point_matrix_gravity returns for the displaced array.", "quantifier": "all separated array pairs and displacements; the limit over L", "why_tests_cant": "a limit over all degrees", "anchors": ["newt/multipoleLib.py:multipole_force", "newt/pg2Multi.py:qmoments", "newt/pg2Multi.py:Qmomentsb", "newt/glib.py:point_matrix_gravity"]}
{"id": "C55", "title": "The multipole torque converges to the direct torque", "statement": "For separated arrays, torques_at_angle of the amplitudes of torque_lm(L, qmoments(L, A), Qmomentsb(L, B)) tends, as L grows, to the z torque point_matrix_gravity returns for A turned about z by that angle with rotate_point_array.", "quantifier": "all separated array pairs and angles; the limit over L", "why_tests_cant": "a limit over all degrees", "anchors": ["newt/multipoleLib.py:torque_lm", "newt/multipoleLib.py:torques_at_angle", "newt/glib.py:point_matrix_gravity"]}
{"id": "C56", "title": "Moments of a moved body of any kind", "statement": "translate_qlm and rotate_qlm applied to the inner moments of any body (point masses, uniform solids, any signed mass distribution of compact support) give exactly the inner moments of the translated / rotated body, to every degree.", "quantifier": "all bodies, all L, vectors and angles", "why_tests_cant": "a statement about all mass distributions", "anchors": ["newt/translations.py:translate_qlm", "newt/rotations.py:rotate_qlm"]}
{"id": "C57", "title": "The CAD mesh follows the body", "statement": "Shape.translate moves the mesh with the body; Shape.rotate turns the mesh with alpha and gamma exchanged, so mesh and moments describe the same body when alpha = gamma and in general do not.", "quantifier": "all shapes, vectors, angles", "why_tests_cant": "all angles", "anchors": ["newt/shapes.py:Shape.rotate", "newt/shapes.py:Shape.translate", "newt/genCAD.py:rotate_mesh"]}
{"id": "C58", "title": "Rotating a shape that holds outer moments", "statement": "Shape.rotate(phi,0,0) on an object with outer moments turns the centre of mass by phi but turns the moments by -phi (they become the outer moments of the array turned by -phi).", "quantifier": "all point arrays off the origin, all L and angles", "why_tests_cant": "all degrees and angles", "anchors": ["newt/shapes.py:Shape.rotate", "newt/rotations.py:rotate_qlm"]}
{"id": "C59", "title": "Inner-to-outer translation converges", "statement": "If all mass of a body lies within radius a of the origin and |d| > a, every moment (l, m) returned by translate_q2Q applied to its inner moments up to degree L tends, as L grows, to the outer moment of the body moved by d, with an explicit geometric error bound; for point arrays: to Qmomentsb of translate_point_array(A, d).", "quantifier": "all bodies, displacements beyond the body's radius, all l, m; the limit over L", "why_tests_cant": "a limit over all truncation degrees", "anchors": ["newt/translations.py:translate_q2Q", "newt/pg2Multi.py:Qmomentsb", "newt/glib.py:translate_point_array"]}
{"id": "C60", "title": "Outer-to-outer translation converges", "statement": "If all mass of a body lies beyond radius D of the origin and |d| < D, every moment (l, m) returned by translate_Qlmb applied to its outer moments up to degree L tends, as L grows, to the outer moment of the body moved by d, with an explicit geometric error bound.", "quantifier": "all bodies, displacements smaller than the clearance, all l, m; the limit over L", "why_tests_cant": "a limit over all truncation degrees", "anchors": ["newt/translations.py:translate_Qlmb", "newt/pg2Multi.py:Qmomentsb"]}
{"id": "C61", "title": "The multipole energy of arbitrary bodies converges", "statement": "For a body within radius a and a body beyond radius D > a (points, uniform solids, holes), -4 pi G sum q_lm Q_lm/(2l+1) up to degree L differs from the exact energy -G double integral dm dm'/|x-y| by at most G M M' (a/D)^(L+1)/(D-a); in particular qlm.annulus moments against Qmomentsb of a point array.", "quantifier": "all separated pairs of bodies, all L", "why_tests_cant": "a limit over all degrees and a statement about all mass distributions", "anchors": ["newt/qlm.py:annulus", "newt/pg2Multi.py:Qmomentsb"]}
{"id": "C62", "title": "Two sets of inner moments give the energy at any sufficient separation", "statement": "For a body within radius a and another within radius r (each about its own origin) and |d| > a + r, the energy computed from the inner moments of the first and translate_q2Q(inner moments of the second, d) converges to the exact energy of the first body in the field of the second moved by d, with an explicit error bound.", "quantifier": "all pairs of bodies and displacements; the limit over L", "why_tests_cant": "a double truncation whose convergence no finite test settles", "anchors": ["newt/translations.py:translate_q2Q", "newt/pg2Multi.py:qmoments"]}
{"id": "C63", "title": "Integrated inner moments are volume integrals over the documented solid", "statement": "With exact quadrature, qlmNum.cyl_mom, cone_mom, trap_mom, steinmetz and platehole return density times the volume integral of r^l conj(Y_lm) over the annular section, cone section, trapezoidal prism, bored cylinder and bored tilted plate they document, in every cell, for all L and accepted parameters (half angle in (0, pi], radii >= 0, tilt in (-pi/2, pi/2)); cyl_mom agrees with qlm.annulus; a negative half angle or a tilt with negative cosine is accepted and gives the moments of negative density.", "quantifier": "all L, densities and parameters", "why_tests_cant": "integration limits, argument order and the real part must be right for every parameter and degree", "anchors": ["newt/qlmNum.py:cyl_mom", "newt/qlmNum.py:cone_mom", "newt/qlmNum.py:trap_mom", "newt/qlmNum.py:steinmetz", "newt/qlmNum.py:platehole", "newt/qlm.py:annulus"]}
{"id": "C64", "title": "Integrated outer moments are volume integrals over the documented solid", "statement": "With exact quadrature, bigQlmNum.annulus, outer_cone and trapezoid return density times the volume integral of Y_lm / r^(l+1) over the documented solid, in every cell, whenever the solid stays off the origin; annulus and trapezoid raise ValueError when it reaches the origin, outer_cone does not.", "quantifier": "all L, densities and parameters", "why_tests_cant": "integration limits, argument order and the real part must be right for every parameter and degree", "anchors": ["newt/bigQlmNum.py:annulus", "newt/bigQlmNum.py:outer_cone", "newt/bigQlmNum.py:trapezoid"]}
{"id": "C65", "title": "A distant sphere acts as a point mass", "statement": "bigQlm.sphere(L, dens, R, x, y, z) returns, in every cell and for all L, the outer moments of one point of mass dens*4/3*pi*R^3 at (x, y, z); if R < |(x, y, z)| these equal density times the volume integral of Y_lm/r^(l+1) over the solid ball; a centre at the origin raises ValueError.", "quantifier": "all L, densities, radii and centres", "why_tests_cant": "equality with a volume integral in every cell for every degree", "anchors": ["newt/bigQlm.py:sphere"]}
{"id": "C66", "title": "Closed-form outer moments of an annular section", "statement": "bigQlm.annulus(LMax, dens, H, r0, r1, phic, phih) holds, in the cells with l <= 5 other than (2, 0) and (5, +-3), density times the volume integral of Y_lm/r^(l+1) over the section r0 <= r <= r1 between z = 0 and z = H facing the azimuth MINUS phic; the cell (2, 0) lacks the factor |H|; (5, 3) is off by an explicit non-vanishing term; rows above 5 are zero although the moments are not; hence a section facing any phic with sin(phic) != 0 is put on the wrong side. ValueError exactly for H = 0, r1 < r0, r0 < 0 or a half angle outside (0, pi]; r0 = 0 divides by zero.", "quantifier": "all LMax, densities, heights of either sign, radii and angles", "why_tests_cant": "each closed form must equal an integral for every parameter value; the wrong cells agree for special values (H = 1, phic = 0)", "anchors": ["newt/bigQlm.py:annulus"]}
{"id": "C67", "title": "Tabulated inner moments of prisms", "statement": "qlmACH.rect_prism, annulus (inner radius >= 0), tri_prism and cylindrical_section return, in every cell with l <= 5, the given density times the volume integral of r^l conj(Y_lm) over the documented solid, and zeros above degree 5, for every LMax.", "quantifier": "all LMax, densities and accepted parameters", "why_tests_cant": "each tabulated polynomial must equal an integral for every parameter value", "anchors": ["newt/qlmACH.py:rect_prism", "newt/qlmACH.py:annulus", "newt/qlmACH.py:tri_prism", "newt/qlmACH.py:cylindrical_section"]}
{"id": "C68", "title": "Tabulated inner moments of the tetrahedron, the pyramid and two bored bodies", "statement": "qlmACH.tetrahedron, pyramid, platehole (tilt in (-pi/2, pi/2)) and cylhole2 (including equal radii) return, in every cell with l <= 5, density times the volume integral of r^l conj(Y_lm) over the documented solid, and zeros above degree 5.", "quantifier": "all LMax, densities and accepted parameters", "why_tests_cant": "closed forms with tangents and elliptic integrals must equal a volume integral for every parameter value", "anchors": ["newt/qlmACH.py:tetrahedron", "newt/qlmACH.py:pyramid", "newt/qlmACH.py:platehole", "newt/qlmACH.py:cylhole2"]}
{"id": "C69", "title": "Wrong cells of the tabulated inner moments", "statement": "qlmACH.cone is right except for q_50, cone2 except for q_20, trapezoid except for q_4+-4, cylhole except for q_2+-2 and q_4+-4; the differences from the volume integrals are given exactly (for cylhole: a sign), with the exact set of parameters for which the table is right after all; in particular cone2 is wrong for all positive radii and cylhole never agrees with cylhole2 on the same body.", "quantifier": "all LMax, densities and accepted parameters", "why_tests_cant": "the wrong cells agree with the right ones for special parameters (unit or vanishing radius), which a test may happen to use", "anchors": ["newt/qlmACH.py:cone", "newt/qlmACH.py:cone2", "newt/qlmACH.py:trapezoid", "newt/qlmACH.py:cylhole"]}
{"id": "C70", "title": "Parameters the tabulated shapes refuse", "statement": "For each constructor of qlmACH the exact set of parameters raising ValueError; trapezoid divides by zero exactly when both parallel sides are points; annulus accepts negative inner radii and then returns the (possibly negative) mass of Ri^2 <= r^2 <= Ro^2.", "quantifier": "all LMax, densities and parameters", "why_tests_cant": "every parameter combination", "anchors": ["newt/qlmACH.py:rect_prism", "newt/qlmACH.py:annulus", "newt/qlmACH.py:cone", "newt/qlmACH.py:trapezoid", "newt/qlmACH.py:platehole", "newt/qlmACH.py:cylhole"]}
{"id": "C71", "title": "The two inner-moment libraries agree up to degree 5", "statement": "For LMax <= 5 and mass = density * volume, qlmACH.rect_prism, annulus, tri_prism, tetrahedron, pyramid (full against half sides), cone with equal radii and cone2 with vanishing upper radius return the same array as qlm.rect_prism, annulus, tri_prism, tetrahedron, pyramid, cylinder and cone.", "quantifier": "all LMax <= 5, densities and parameters", "why_tests_cant": "two differently organised computations must agree for every parameter value", "anchors": ["newt/qlmACH.py:rect_prism", "newt/qlmACH.py:annulus", "newt/qlmACH.py:tri_prism", "newt/qlmACH.py:tetrahedron", "newt/qlmACH.py:pyramid", "newt/qlm.py:rect_prism", "newt/qlm.py:annulus"]}
{"id": "C72", "title": "A Gauss-Legendre brick has the moments of the solid brick", "statement": "gShapeGL.rectangle(mass, x, y, z, dx, dy, dz) returns dx*dy*dz points of total mass `mass`, strictly inside the brick, positive if mass is, whose inner moments of every degree below 2*min(dx, dy, dz) are exactly those of the uniform brick, and so agree with qlm.rect_prism; a zero count raises ValueError.", "quantifier": "all masses, sides and point counts (for any exact Gauss-Legendre table)", "why_tests_cant": "equality with a volume integral in every cell, for every number of points", "anchors": ["newt/gShapeGL.py:rectangle", "newt/qlm.py:rect_prism"]}
{"id": "C73", "title": "Gauss-Legendre arrays have the requested mass", "statement": "gShapeGL.sphere, annulus, cone, wedge and tri_prism, whenever they return points, return points whose masses add up to the requested mass.", "quantifier": "all parameters and point counts", "why_tests_cant": "all sizes and node tables", "anchors": ["newt/gShapeGL.py:sphere", "newt/gShapeGL.py:annulus", "newt/gShapeGL.py:cone", "newt/gShapeGL.py:wedge", "newt/gShapeGL.py:tri_prism"]}
{"id": "C74", "title": "Where Gauss-Legendre arrays put their points", "statement": "sphere always returns points, inside the ball, without moments of degree 1, 2 or 3; annulus and wedge points are inside the documented cross-section but fill |z| < t rather than |z| < t/2 (their height spread is that of thickness 2t); cone fills a double cone, each point with a mirror image, and fails for two points per axis; tri_prism points are inside the prism but only in the middle half of its y-range, and a prism towards negative x fails; more z points than in-plane points raise IndexError.", "quantifier": "all parameters and point counts (for any exact Gauss-Legendre table)", "why_tests_cant": "properties of all node tables", "anchors": ["newt/gShapeGL.py:sphere", "newt/gShapeGL.py:annulus", "newt/gShapeGL.py:cone", "newt/gShapeGL.py:wedge", "newt/gShapeGL.py:tri_prism"]}
{"id": "C75", "title": "The drawn mesh is the body whose moments are computed", "statement": "Annulus, RectPrism, TriPrism, Cone, Tetrahedron and Sphere (inner) put into the new object the inner moments of a uniform body of the given mass and a mesh filling exactly that body (with the sign of the mass); genCAD.sphere, cylinder, tri_iso_prism, tri_iso_prism2 and tetrahedron fill the bodies whose moments qlm.py computes; genCAD.cone with a top radius is the frustum with sections falling linearly from r2 to r1.", "quantifier": "all degrees, masses and accepted parameters", "why_tests_cant": "equality of two regions of space for every parameter value", "anchors": ["newt/genCAD.py:annulus", "newt/genCAD.py:rect_prism", "newt/genCAD.py:tri_prism", "newt/genCAD.py:cone", "newt/genCAD.py:tetrahedron2", "newt/genCAD.py:sphere", "newt/shapes.py:Annulus", "newt/shapes.py:Cone", "newt/shapes.py:Sphere"]}
{"id": "C76", "title": "Meshes that differ from the body whose moments are computed", "statement": "Pyramid draws a mesh with half the sides and NGon one with half the side length (a quarter of the volume each; NGon also ignores phic); trapezoid is lofted along z instead of x; cylhole exchanges heights and radii, so that neither body contains the other; platehole draws a horizontal plate with a tilted hole, contained in the computed body turned by theta about y, equal to it exactly when the drawn plate and drill are large enough (never for negative tilt or tilt >= 60 degrees), and different from the unturned body for every non-zero tilt.", "quantifier": "all masses and accepted parameters", "why_tests_cant": "exact comparison of regions for every parameter value", "anchors": ["newt/genCAD.py:pyramid", "newt/genCAD.py:ngon_prism", "newt/genCAD.py:trapezoid", "newt/genCAD.py:cylhole", "newt/genCAD.py:platehole", "newt/shapes.py:Pyramid", "newt/shapes.py:NGon"]}
{"id": "C77", "title": "Adding meshes", "statement": "sum_mesh, and so Shape.add, keeps a point exactly when the last mesh of the list containing it has positive mass, the first counting as positive; with all positive meshes first the result is their union minus the negative ones, a hole listed before its body disappears, and an OuterCone of negative mass is joined instead of cut out.", "quantifier": "all lists of meshes", "why_tests_cant": "lists of any length and arbitrary regions", "anchors": ["newt/genCAD.py:sum_mesh", "newt/shapes.py:Shape.add"]}
{"id": "C78", "title": "Mass normalisation of Cylhole and Platehole", "statement": "The moments of an inner Cylhole or Platehole of a given mass are 4 pi times those of the uniform body of that mass, so the monopole is that of the mass only for mass zero; refused parameters raise ValueError.", "quantifier": "all degrees, masses, radii, thicknesses and tilts", "why_tests_cant": "volume integrals for every parameter value", "anchors": ["newt/shapes.py:Cylhole", "newt/shapes.py:Platehole"]}
{"id": "C79", "title": "Outer moments of the shape classes", "statement": "The outer moments of an Annulus are one half of those of the uniform body of its mass (mirrored in azimuth) in all cells of degree <= 5 that bigQlm.annulus gets right; an annulus touching the axis, empty or flat divides by zero, other bad parameters raise ValueError; the outer moments of RectPrism, TriPrism, Cone, NGon, Tetrahedron, Pyramid, Cylhole, Platehole, Sphere and OuterCone are zero whatever the mass; OuterCone accepts exactly 0 < IR < OR, 0 < H, 0 < phih <= pi.", "quantifier": "all degrees, masses and parameters", "why_tests_cant": "volume integrals for every parameter value", "anchors": ["newt/shapes.py:Annulus", "newt/shapes.py:Sphere", "newt/shapes.py:RectPrism"]}
{"id": "C80", "title": "Multipole force between arbitrary bodies converges", "statement": "For a body that, displaced, lies within radius a and a body outside radius R > a (any signed combination of uniform solids, points and holes), multipole_force of their inner and outer moments at that displacement converges as the maximum degree grows to the Newtonian force integral G int int (y-x)/|y-x|^3 dm dm', which for point arrays is the force point_matrix_gravity returns.", "quantifier": "all bodies of compact support, displacements and radii", "why_tests_cant": "a limit over all degrees, volume integrals over arbitrary bodies", "anchors": ["newt/multipoleLib.py:multipole_force", "newt/translations.py:translate_qlm", "newt/glib.py:point_matrix_gravity"]}
{"id": "C81", "title": "Multipole torque between arbitrary bodies converges", "statement": "For a body within radius a and a body outside radius R > a, the torque torques_at_angle computes from the torque_lm amplitudes of their moments converges as the maximum degree grows to the z component of the Newtonian torque integral on the first body turned by that angle; in particular for qlm.annulus moments against the outer moments of a point array.", "quantifier": "all bodies of compact support, angles and radii", "why_tests_cant": "a limit over all degrees, volume integrals over arbitrary bodies", "anchors": ["newt/multipoleLib.py:torque_lm", "newt/multipoleLib.py:torques_at_angle", "newt/qlm.py:annulus"]}
{"id": "C82", "title": "Yukawa translation matrices along z", "statement": "The matrices of transl_yuk_z_RR_recurs and transl_yuk_z_SR_recurs satisfy M[j,i] = (-1)^(i+j) M[i,j] for every order; the first column and row for m=0 are the (signed) modified spherical Bessel functions i_l or k_l of k dr times sqrt(2l+1); at zero displacement applying the RR matrices negates every moment with l > |m| instead of leaving the moments unchanged, and the (1,1) coefficient of both is wrong (not three times the derivative of the first Bessel function) at every positive k dr.", "quantifier": "all maximum degrees, displacements and screening lengths", "why_tests_cant": "recursions of any depth over real parameters", "anchors": ["newt/translationRecurs.py:transl_yuk_z_RR_recurs", "newt/translationRecurs.py:transl_yuk_z_SR_recurs"]}
{"id": "C83", "title": "qlm.cyl_mom", "statement": "qlm.cyl_mom ignores its density argument, raises for every order M >= L (the monopole included), and for M=0 and every degree L >= 1 returns -(L+3)!/(4 pi^2) times the moment of the cylinder of density 1 (for L=2, -30/pi^2), so it is wrong for every positive density unless the moment vanishes. The moments of order M > 0 of a cylinder vanish; the result for M = L-1 does too, but for M = L-2 it is never zero.", "quantifier": "all degrees, orders, densities, heights and radii", "why_tests_cant": "volume integrals for every parameter value", "anchors": ["newt/qlm.py:cyl_mom"]}
{"id": "C84", "title": "Point arrays converge to the uniform solid", "statement": "As the grid numbers grow, the arrays of annulus, wedge, cone, outer_cone, trapezoid, cylhole, tri_prism and tetrahedron (with y1 >= 0), rectangle (nx = ny) and ngon_prism become equidistributed over the documented solid: every point in it, equal masses adding up to the mass, and for every continuous function the mass-weighted sum tends to the volume average times the mass. The limits of the other arrays are also determined: sphere fills the cube of side R, rectangle with nx:ny = a:b the box shifted by y(b-a)/(2b), pyramid the pyramid of half the sides, tri_prism and tetrahedron the part with y >= 0, platehole (with 2 r + 3 t tan(theta) >= 0) the sheared disc cylinder.", "quantifier": "all masses and dimensions, every continuous function, grid numbers going to infinity independently", "why_tests_cant": "a limit over grids of any size and all test functions", "anchors": ["newt/glibShapes.py:annulus", "newt/glibShapes.py:wedge", "newt/glibShapes.py:cone", "newt/glibShapes.py:outer_cone", "newt/glibShapes.py:trapezoid", "newt/glibShapes.py:cylhole", "newt/glibShapes.py:tri_prism", "newt/glibShapes.py:tetrahedron", "newt/glibShapes.py:rectangle", "newt/glibShapes.py:ngon_prism", "newt/glibShapes.py:sphere", "newt/glibShapes.py:pyramid", "newt/glibShapes.py:platehole"]}
{"id": "C85", "title": "Point arrays that never become the documented solid", "statement": "However fine the grid, the arrays of sphere do not converge to the ball of radius R, those of pyramid not to the pyramid of the documented sides, those of platehole with a non-zero tilt not to the drilled plate, those of tri_prism and tetrahedron with y1 < 0 not to the documented body, and those of rectangle with nx:ny fixed and different from 1 not to the centred box.", "quantifier": "all masses and dimensions, grid numbers going to infinity", "why_tests_cant": "negation of a limit for every parameter value", "anchors": ["newt/glibShapes.py:sphere", "newt/glibShapes.py:pyramid", "newt/glibShapes.py:platehole", "newt/glibShapes.py:tri_prism", "newt/glibShapes.py:tetrahedron", "newt/glibShapes.py:rectangle"]}
{"id": "C86", "title": "Force and torque of refined point arrays", "statement": "When the arrays of two bodies a positive distance apart are refined independently, point_matrix_gravity and point_matrix_yukawa eventually succeed and their force and torque converge to the double volume integrals of the Newton and Yukawa laws; this holds for arrays that are stacked, translated with translate_point_array or turned with rotate_point_array, with the assembly moved the same way; the limits agree with those of multipole_force and torques_at_angle with exact moments as the degree grows.", "quantifier": "all pairs of converging families of arrays, all assemblies, screening lengths and separations", "why_tests_cant": "double limits and volume integrals over arbitrary bodies", "anchors": ["newt/glib.py:point_matrix_gravity", "newt/glib.py:point_matrix_yukawa", "newt/glib.py:translate_point_array", "newt/glib.py:rotate_point_array", "newt/multipoleLib.py:multipole_force", "newt/multipoleLib.py:torques_at_angle"]}
{"id": "C87", "title": "Moments of refined point arrays", "statement": "The moments qmoments and Qmomentsb compute for converging families of arrays converge to the inner and (away from the origin) outer moments of the body; away from the origin qmoments succeeds; in particular qmoments of the annulus arrays converges to qlm.annulus.", "quantifier": "all degrees and orders, all converging families of arrays", "why_tests_cant": "limits and volume integrals", "anchors": ["newt/pg2Multi.py:qmoments", "newt/pg2Multi.py:Qmomentsb", "newt/glibShapes.py:annulus", "newt/qlm.py:annulus"]}
{"id": "C88", "title": "Cylindrical coordinates", "statement": "cart_2_cyl returns a non-negative radius, an azimuth in [0, 2 pi) and the same height; cyl_2_cart takes its result back to the point, on the axis too; cylindrical coordinates survive the opposite round trip exactly when the radius is positive and the azimuth in [0, 2 pi), or both are zero.", "quantifier": "all points and all cylindrical coordinates", "why_tests_cant": "all real triples", "anchors": ["newt/glibShapes.py:cart_2_cyl", "newt/glibShapes.py:cyl_2_cart"]}
{"id": "C89", "title": "Spheres act as points; moments determine the forces", "statement": "Two bodies within a ball with the same inner moments of all degrees feel the same energy, force and torque (all three components) from any body outside the ball. In particular qlm.sphere returns the moments of a point mass, any body outside a uniform sphere, wherever it is, acts on it as on the point mass at its centre, and for assemblies of non-touching uniform spheres point_matrix_gravity of the centres returns the exact force and torque between the solid spheres (glibShapes.sphere advises to use a point).", "quantifier": "all bodies of compact support, all assemblies of spheres, masses, radii and positions", "why_tests_cant": "volume integrals over arbitrary bodies, lists of any length", "anchors": ["newt/qlm.py:sphere", "newt/pg2Multi.py:qmoments", "newt/glib.py:point_matrix_gravity", "newt/multipoleLib.py:multipole_force", "newt/multipoleLib.py:torques_at_angle"]}
{"id": "C90", "title": "Gauss-Legendre arrays converge", "statement": "As the numbers of nodes grow, the arrays of gShapeGL.rectangle and sphere become the uniform brick and the uniform ball (mass-weighted sums of every continuous function converge to the volume average times the mass); refined sphere arrays act on any array outside as the point mass at the centre does. The limits of the others (with dd = dz) are determined: annulus and wedge become the documented solid of twice the height, cone two cones tip to tip, tri_prism the middle half of the prism; the annulus arrays never become the documented ring.", "quantifier": "all masses and dimensions, every continuous function, any number of nodes, any table of Gauss-Legendre rules", "why_tests_cant": "limits over rules of any size and all test functions", "anchors": ["newt/gShapeGL.py:rectangle", "newt/gShapeGL.py:sphere", "newt/gShapeGL.py:annulus", "newt/gShapeGL.py:cone", "newt/gShapeGL.py:wedge", "newt/gShapeGL.py:tri_prism", "newt/glib.py:point_matrix_gravity"]}
{"id": "C91", "title": "The Octave gravity is the Python gravity", "statement": "pointMatrixGravity returns the same force and torque as point_matrix_gravity for all arrays, namely Newton's force and its torque about the origin when no two points coincide, and an undefined result otherwise; translatePMArray moves arrays as translate_point_array does.", "quantifier": "all pairs of arrays of any length, all displacements", "why_tests_cant": "all real arrays", "anchors": ["matlab-src/pointMatrixGravity.m", "matlab-src/Gmmr2Array.m", "matlab-src/translatePMArray.m", "newt/glib.py:point_matrix_gravity", "newt/glib.py:translate_point_array"]}
{"id": "C92", "title": "Octave rotations turn the other way", "statement": "rotatePMArray(A, angle, axis) is rotate_point_array(A, -angle, axis) for every array, angle and axis: the rotation about the axis through the origin, clockwise as seen from the tip of the axis vector. The same call gives different arrays in the two implementations unless sin(angle) = 0 or all points are on the axis.", "quantifier": "all arrays, angles and axes", "why_tests_cant": "all real inputs", "anchors": ["matlab-src/rotatePMArray.m", "newt/glib.py:rotate_point_array"]}
{"id": "C93", "title": "Octave moments mirror the array", "statement": "computeMoments(l, m, A) is the inner moment of the array in which every point off the z axis is replaced by its mirror image in the plane z = 0: it is the moment of A when l + m is even or all points off the axis have z = 0, minus the moment when l + m is odd and no point is on the axis, and not continuous where a point crosses the axis. computeMomentSummary lists exactly the degrees 1..maxL with 0 <= m <= l, leaving out the monopole.", "quantifier": "all degrees, orders and arrays", "why_tests_cant": "spherical harmonics of every degree", "anchors": ["matlab-src/computeMoments.m", "matlab-src/YLM.m", "matlab-src/computeMomentSummary.m"]}
{"id": "C94", "title": "Octave shape generators", "statement": "genPointMassRect with whole counts returns nx ny nz equal masses adding up to the mass, inside the brick, with zero first moments, and fills the brick as the counts grow; with fractional counts it fails or silently loses mass by an exact factor. genPointMassAnnlSheet is glibShapes.annulus with x and z exchanged and fills the annulus. genPointMassXRing is invariant under its own rotation step. genPointMassLine ignores zstart. genPointMassArrayFrom2DArray stacks the documented points under the height map, with a mass below the exact one by at most one layer, and returns nothing for a non-positive density. The random generators return points of the documented region and the requested number and mass; the random shell is that of glibShapes.", "quantifier": "all dimensions, masses, counts, height maps and random draws", "why_tests_cant": "all real parameters, arrays of any size and all random outcomes", "anchors": ["matlab-src/shapes/genPointMassRect.m", "matlab-src/shapes/genPointMassAnnlSheet.m", "matlab-src/shapes/genPointMassXRing.m", "matlab-src/shapes/genPointMassLine.m", "matlab-src/shapes/genPointMassArrayFrom2DArray.m", "matlab-src/shapes/genPointMassRandomDisk.m", "matlab-src/shapes/genPointMassRandomRectangle.m", "matlab-src/shapes/genPointMassSphericalRandomShell.m", "newt/glibShapes.py:annulus"]}
{"id": "C95", "title": "Levelling a surface scan", "statement": "scanCenterAndRemoveLinear returns a scan with zero mean in every coordinate and no correlation of the height with x or y; it only shifts the positions, subtracts from the heights the plane that leaves the smallest sum of squares, and converts to metres. Tilting or displacing the scanned piece does not change the result, and a scan of a plane becomes flat, also when all points lie over one line.", "quantifier": "all scans of any length, all planes and shifts", "why_tests_cant": "real data of any length", "anchors": ["matlab-src/scanCenterAndRemoveLinear.m"]}
{"id": "C96", "title": "Rotors of N equal bodies", "statement": "Adding to an array its N - 1 copies turned by equal steps about z (as the example scripts do) multiplies the moments whose order is divisible by N by N and removes all others; the result is the array of the N turned bodies. An array is unchanged by rotate_qlm(2 pi / N, 0, 0) exactly when only orders divisible by N occur. The torque between an N-fold rotor and an M-fold source has only harmonics divisible by both, and forces and torques repeat with the angle 2 pi / N.", "quantifier": "all N and M, all arrays and degrees, all bodies and angles", "why_tests_cant": "all rotor symmetries, degrees and angles", "anchors": ["newt/rotations.py:rotate_qlm", "newt/multipoleLib.py:torque_lm", "newt/multipoleLib.py:torques_at_angle", "newt/multipoleLib.py:multipole_force", "newt/example/test_ligo.py", "newt/example/test_virgo.py"]}
{"id": "C97", "title": "Turning a rotor step by step", "statement": "Applying rotate_qlm_Ds k times with the matrices of one step (computed by wignerDl to one degree more, the last one dropped, as test_ligo2.py does) gives exactly rotate_qlm by k steps, so a full circle returns the original array and the scripts that turn the rotor step by step and from the start compute the same forces, one step apart. Without dropping the extra matrix rotate_qlm_Ds returns the array unturned, with no error.", "quantifier": "all arrays, steps and numbers of steps", "why_tests_cant": "any number of repeated applications", "anchors": ["newt/rotations.py:rotate_qlm_Ds", "newt/rotations.py:wignerDl", "newt/example/test_ligo2.py"]}
{"id": "C98", "title": "Force and torque from two sets of inner moments", "statement": "Take the inner moments of two bodies about their own centres, translate those of the second by d with translate_q2Q, and apply multipole_force or torque_lm and torques_at_angle: as the degree grows the results converge to the Newtonian force on the first body (displaced by any v) and the z torque on the first body (turned by any angle) due to the second body at d, whenever |d| exceeds the sum of the two radii; the error falls at least as fast as theta^L for every theta above (sum of the radii)/|d|. For point arrays the limits are what point_matrix_gravity returns.", "quantifier": "all pairs of bodies of compact support (solids, points, with holes), displacements and angles", "why_tests_cant": "limits of series over arbitrary bodies", "anchors": ["newt/translations.py:translate_q2Q", "newt/multipoleLib.py:multipole_force", "newt/multipoleLib.py:torque_lm", "newt/multipoleLib.py:torques_at_angle", "newt/glib.py:point_matrix_gravity"]}
{"id": "C99", "title": "The example calculations, end to end", "statement": "The forces computed by test_ligo.py, test_ligo2.py and test_virgo.py converge, as LMax grows, to the Newtonian force on the turned solid rotor (three plus two cylinders, or two arcs) due to the mirror, a solid cylinder with its axis along y at [dx, dy, 0], for any dimensions such that the mirror is further away than the sum of the two radii; the dimensions in the scripts satisfy this. The LIGO rotor has no moments of orders divisible neither by 2 nor by 3.", "quantifier": "all dimensions, masses, numbers of angles and angle indices", "why_tests_cant": "limits of whole calculations over all dimensions", "anchors": ["newt/example/test_ligo.py", "newt/example/test_ligo2.py", "newt/example/test_virgo.py"]}
{"id": "C100", "title": "Change of unit of length", "statement": "Measuring all lengths in another unit changes every result by the power of the unit its dimension demands and in no other way: forces by 1/s^2 and torques by 1/s (point_matrix_gravity, and point_matrix_yukawa with the range in the new unit), inner moments of degree l by s^l and outer ones by s^-(l+1) (qmoments, Qmomentsb and the closed forms of qlm for all solids), and translate_qlm, translate_Qlmb, translate_q2Q, rotate_qlm, multipole_force and torque_lm commute with the change.", "quantifier": "all units s > 0, arrays, moments, displacements, rotations, solids and degrees", "why_tests_cant": "all real scale factors and all degrees", "anchors": ["newt/glib.py:point_matrix_gravity", "newt/glib.py:point_matrix_yukawa", "newt/pg2Multi.py:qmoments", "newt/pg2Multi.py:Qmomentsb", "newt/translations.py:translate_qlm", "newt/translations.py:translate_Qlmb", "newt/translations.py:translate_q2Q", "newt/rotations.py:rotate_qlm", "newt/multipoleLib.py:multipole_force", "newt/multipoleLib.py:torque_lm", "newt/qlm.py:sphere", "newt/qlm.py:cylinder", "newt/qlm.py:annulus", "newt/qlm.py:cone", "newt/qlm.py:ngon_prism", "newt/qlm.py:pyramid"]}
{"id": "C101", "title": "Rings of point masses", "statement": "For two coaxial rings of N equal point masses each, point_matrix_gravity gives the torque N G M m d R sum_k sin(c_k)/gap_k^3 and the axial force N G M m (z-h) sum_k 1/gap_k^3, with gap_k the distance of two points whose azimuths differ by c_k = b - a + 2 pi k/N, and no other component when N >= 2; rotate_point_array about z by t only adds t to the azimuth, and the multipole torque of torques_at_angle converges to the same formula at every angle when one ring is nearer the origin than the other. For N = 2 this is the quadrupole formula the test-suite compares with at sample angles.", "quantifier": "all N, masses, radii, heights and angles", "why_tests_cant": "all numbers of masses and all real parameters", "anchors": ["newt/glib.py:point_matrix_gravity", "newt/glib.py:rotate_point_array", "newt/pg2Multi.py:qmoments", "newt/pg2Multi.py:Qmomentsb", "newt/multipoleLib.py:torque_lm", "newt/multipoleLib.py:torques_at_angle"]}
{"id": "C102", "title": "Random sources and the shell theorem", "statement": "With independent uniform random pairs the arrays of spherical_random_shell (and of its Octave counterpart) almost surely become the uniform spherical shell as the number of draws grows, those of genPointMassRandomDisk the uniform annulus (its rejection loop almost surely ends for every number of points) and those of genPointMassRandomRectangle the uniform rectangle. The uniform shell exerts neither force nor torque on a body inside it, and on a body outside it those of a point mass at its centre; hence the results of point_matrix_gravity for points inside tend to zero and for points outside to -G m M x/|x|^3, and the Yukawa force on a point at the centre tends to zero.", "quantifier": "all masses, radii, bodies and almost every sequence of random draws", "why_tests_cant": "a limit over infinitely many random draws and over all positions", "anchors": ["newt/glibShapes.py:spherical_random_shell", "newt/glib.py:point_matrix_gravity", "newt/glib.py:point_matrix_yukawa", "matlab-src/shapes/genPointMassSphericalRandomShell.m", "matlab-src/shapes/genPointMassRandomDisk.m", "matlab-src/shapes/genPointMassRandomRectangle.m"]}
{"id": "C103", "title": "The Clebsch-Gordan table is an orthogonal change of basis", "statement": "For all integer j1, j2 the coefficients cgCoeff returns obey both ladder relations, are orthonormal over (m1, m2) for different (J, M), complete over (J, M) for different (m1, m2), never exceed one in magnitude, change by (-1)^(j1+j2-J) when the two angular momenta are exchanged, and take the textbook values for J = M = 0, for the highest weight, for J = 2 j and for the three families the translation routines need.", "quantifier": "all integer arguments", "why_tests_cant": "all angular momenta, sums of any length", "anchors": ["newt/clebschGordan.py:cgCoeff", "newt/clebschGordan.py:cgCoeff2", "newt/translations.py:translate_qlm", "newt/translations.py:translate_Qlmb", "newt/translations.py:translate_q2Q"]}
{"id": "C104", "title": "Symmetries and explicit entries of the Wigner matrices", "statement": "The small d matrices, computed recursively by dlmn and explicitly by Dl, have in every degree and for every angle (not only 0 <= beta <= pi) the six symmetries of the textbook (transpose, antitranspose, pi - beta, pi + beta, -beta as inverse and as change of sign); at beta = pi they are antidiagonal with alternating signs; the full matrices have the conjugation symmetry; and degrees one and two equal the tabulated matrices entry by entry.", "quantifier": "all degrees, orders and real angles", "why_tests_cant": "all real angles and degrees", "anchors": ["newt/rotations.py:dlmn", "newt/rotations.py:Dl", "newt/rotations.py:Dlmn"]}
{"id": "C105", "title": "Clebsch-Gordan table and Wigner matrices belong together", "statement": "The coefficients of cgCoeff intertwine the matrices of wignerDl (coupling after rotating equals rotating after coupling), and the product of any entries of two Wigner matrices is the Clebsch-Gordan series in the matrices of the coupled degrees; so the two independent implementations use the same phase conventions.", "quantifier": "all degrees, orders and Euler angles", "why_tests_cant": "all real angles and degrees", "anchors": ["newt/clebschGordan.py:cgCoeff", "newt/rotations.py:wignerDl", "newt/rotations.py:Dl"]}
{"id": "C106", "title": "Bodies of revolution", "statement": "rotate_qlm turns the moments of a body of revolution (only order zero) into sqrt(4 pi/(2 l+1)) times the conjugate spherical harmonic of the direction (alpha, beta) of its axis times the moment of order zero, whatever the angle gamma about its own axis; the middle column of the matrices of wignerDl is that harmonic and the central entry the Legendre polynomial of cos beta. An array belongs to a body of revolution exactly when no rotation about z changes it, and it feels no torque about z. Spheres, cylinders, whole rings and whole cones of qlm are such bodies.", "quantifier": "all arrays, degrees, Euler angles and dimensions", "why_tests_cant": "all real angles and degrees", "anchors": ["newt/rotations.py:rotate_qlm", "newt/rotations.py:wignerDl", "newt/multipoleLib.py:torque_lm", "newt/qlm.py:cylinder", "newt/qlm.py:annulus", "newt/qlm.py:cone", "newt/qlm.py:sphere"]}
{"id": "C107", "title": "The remaining Octave routines", "statement": "scanToPMArray returns, over each node of the grid spanned by the scan, one point for each cell of height zspacing that fits under the interpolated surface, at positions relative to the middle of the grid, so a scan moved sideways gives the same array; scatterPMMassesYZGrid, documented to scatter y and z, keeps masses and heights and moves x and y; genPointMassRoundXSheet never returns a value; SampleDemo computes one row per angle, 63 in all, holding exactly Newton's force and torque on the pendulum from the attractor turned clockwise by that angle.", "quantifier": "all scans, spacings, interpolations, arrays, random draws and angle indices", "why_tests_cant": "all inputs and all random draws", "anchors": ["matlab-src/scanToPMArray.m", "matlab-src/scatterPMMassesYZGrid.m", "matlab-src/shapes/genPointMassRoundXSheet.m", "matlab-src/SampleDemo.m"]}
{"id": "C108", "title": "Far field of point arrays", "statement": "For arrays that fit in balls of radii ra and rb whose centres are d apart (|d| > ra + rb), point_matrix_gravity succeeds and its force differs from that of the two total masses at the centres by at most G sum|m| sum|m'| s(2|d|-s)/(|d|^2(|d|-s)^2), s = ra + rb, and its torque from that of a uniform field on the first moment by at most ra times that; the square of the distance times the force tends to G M M' n. The Yukawa force and torque are bounded by those of the total masses at the smallest possible distance and vanish faster than any power of the distance.", "quantifier": "all arrays, displacements, strengths and ranges", "why_tests_cant": "all arrays and all distances", "anchors": ["newt/glib.py:point_matrix_gravity", "newt/glib.py:point_matrix_yukawa", "newt/glib.py:translate_point_array"]}
{"id": "C109", "title": "Plates and sheets", "statement": "On the axis of a round plate with a concentric hole the arrays of annulus exert, in the limit of fine grids, the textbook attraction and no sideways force; at any point above a whole plate of radius R the vertical force lies between (1 - h/(R-s)) and 1 times 2 pi G times mass per area (s the distance from the axis, h the height) and the sideways force is below s(2R-s)/(2(R-s)^2) of it, so the infinite sheet attracts uniformly.", "quantifier": "all plates, heights above the plate and distances from the axis", "why_tests_cant": "limits of grids and of the radius, all positions", "anchors": ["newt/glibShapes.py:annulus", "newt/glib.py:point_matrix_gravity"]}
{"id": "C110", "title": "Yukawa interaction of spheres and shells", "statement": "Under the Yukawa interaction a uniform ball of mass m and radius R acts on everything outside it, and is acted on, like a point of mass m times 3(x cosh x - sinh x)/x^3, x = R/lambda, at its centre; a uniform spherical shell like a point of mass m sinh(x)/x, and inside the shell there is a force, unlike Newton's. So the force and torque point_matrix_yukawa returns for refined arrays of separated balls, of gShapeGL.sphere, and of almost every sequence of spherical_random_shell tend to those of the rescaled points. Both factors exceed one, the shell's more than the ball's, and tend to one for long ranges.", "quantifier": "all radii, ranges (including negative), strengths, masses, separated positions and almost every sequence of random draws", "why_tests_cant": "limits over grids and random draws, all positions", "anchors": ["newt/glib.py:point_matrix_yukawa", "newt/glibShapes.py:spherical_random_shell", "newt/gShapeGL.py:sphere"]}
{"id": "C111", "title": "Yukawa field of plates and sheets", "statement": "On the axis of a round plate with a concentric hole the arrays of annulus exert under point_matrix_yukawa, in the limit of fine grids, the closed-form attraction 2 pi lambda alpha G m rho times the alternating sum of exp(-distance/lambda) to its four edge circles and no sideways force; at any point above a whole plate the force equals that of the infinite sheet up to errors that decay exponentially with the distance to the edge over lambda; the infinite sheet's force falls by exp(-d/lambda) when lifted by d and tends to Newton's 2 pi G sigma for long ranges.", "quantifier": "all plates, ranges, heights above the plate and distances from the axis", "why_tests_cant": "limits of grids and of the radius, all positions", "anchors": ["newt/glibShapes.py:annulus", "newt/glib.py:point_matrix_yukawa"]}
{"id": "C112", "title": "Rounding errors of point_matrix_gravity", "statement": "In floating point arithmetic of unit roundoff u (each operation within relative distance u of exact, no overflow or underflow), whatever the order in which numpy and BLAS sum and whether they fuse multiplications, point_matrix_gravity gives a number exactly when no two points coincide, and each component of the force differs from the exact one by at most (1-u)^-(18+M+N) - 1 times the sum of the absolute values of the pair forces (20+M+N for the torque). So positive masses on one side of an axis give a relative error of about (18+M+N) u and the right sign, action and reaction cancel to that accuracy, and doubles with up to 400000 points have ten correct digits where nothing cancels.", "quantifier": "all arrays, all roundings and all summation orders", "why_tests_cant": "every possible sequence of roundings and every summation order", "anchors": ["newt/glib.py:gmmr2_array", "newt/glib.py:point_matrix_gravity"]}
{"id": "C113", "title": "Rounding errors of point_matrix_yukawa", "statement": "Under the same arithmetic and for a positive range point_matrix_yukawa gives a number exactly when no two points coincide, and each pair contribution carries at most the error of 23+M+N roundings (25+M+N for the torque) times exp(r/lambda times the error of five roundings): the exponential amplifies the rounding of the distance in proportion to r/lambda and no more.", "quantifier": "all arrays, strengths, positive ranges, all roundings and all summation orders", "why_tests_cant": "every possible sequence of roundings and every summation order", "anchors": ["newt/glib.py:yukawa_array", "newt/glib.py:point_matrix_yukawa"]}
{"id": "C114", "title": "Sensitivity to positions and rounded translations", "statement": "If the points of two arrays are displaced by at most sa and sb, together less than their smallest distance D, point_matrix_gravity stays defined and its force changes by at most G sum|m| sum|m'| s(2D-s)/(D^2(D-s)^2), s = sa+sb (similarly the torque). translate_point_array in floating point displaces each point by at most u times its distance from the origin, so computing translation and force in floating point adds just that error to the one of the force.", "quantifier": "all arrays, displacements, translations and roundings", "why_tests_cant": "all displacements and every sequence of roundings", "anchors": ["newt/glib.py:point_matrix_gravity", "newt/glib.py:translate_point_array"]}
{"id": "C115", "title": "Truncation error of multipole forces and torques", "statement": "If a displaced body lies within radius a of the origin and another outside radius R > a, each component of multipole_force of their moments up to degree L differs from the Newtonian force by at most G M M' (a/R)^L (L+1-L a/R)/(R-a)^2 (M, M' total absolute masses), and the torque that torques_at_angle computes from the amplitudes of torque_lm by at most a times that, at every angle; for point arrays the exact values are those of point_matrix_gravity. The bound for the force is attained by two points on one ray, and tends to zero as L grows.", "quantifier": "all bodies (signed combinations of solids, points and holes), point arrays, displacements, angles and degrees", "why_tests_cant": "all bodies and all degrees", "anchors": ["newt/multipoleLib.py:multipole_force", "newt/multipoleLib.py:torque_lm", "newt/multipoleLib.py:torques_at_angle", "newt/pg2Multi.py:qmoments", "newt/pg2Multi.py:Qmomentsb", "newt/glib.py:point_matrix_gravity"]}
{"id": "C116", "title": "What display_points draws", "statement": "In the default mode display_points draws exactly the points of positive mass of each array in its (+) group and those of negative mass in its (-) group, all with size 50, and omits points of zero mass; with scale_mass all points of nonzero mass, negative ones included, are drawn in the (+) group with size 100 times the number of points times the signed mass (so a negative mass asks for a negative size) and the (-) groups are empty. In either mode every point of nonzero mass is drawn exactly once, and moving or turning an array changes no group.", "quantifier": "all pairs of arrays and both modes", "why_tests_cant": "all arrays", "anchors": ["newt/glib.py:display_points"]}
{"id": "C117", "title": "Euler angles: body axes, any orientation, composition", "statement": "Turning a body by alpha about its own z axis, then by beta about the new place of its own y axis, then by gamma about the new place of its z axis equals turning it about the fixed axes in the opposite order, and is what rotate_qlm(q, alpha, beta, gamma) does to its inner moments (with -alpha, beta, -gamma to its outer moments). Every sequence of turns with rotate_point_array about any axes is one such turn with beta between 0 and pi, so one call of rotate_qlm gives the moments of a body in any orientation; two calls of rotate_qlm compose to one, the product of two wignerDl matrices is the matrix of the composed turn, and two triples of angles act alike on all moments exactly when they turn all points alike.", "quantifier": "all angles, axes, sequences of turns, arrays, moments and degrees", "why_tests_cant": "all sequences of rotations", "anchors": ["newt/rotations.py:rotate_qlm", "newt/rotations.py:wignerDl", "newt/glib.py:rotate_point_array"]}
{"id": "C118", "title": "Bodies built from pieces", "statement": "The moments qlm.py returns for a body are the sum of those of the pieces it is cut into, whichever routines make the pieces, the masses being in proportion to the volumes: annuli and cylinders cut at a radius, annuli and cones cut along half planes through the axis (and an annulus without hole over a full turn is a cylinder whatever its phic), triangular prisms and tetrahedra cut through their axial edge, a rectangular prism into four isosceles prisms, a regular prism into N, a pyramid into four tetrahedra turned with rotate_qlm, prisms of equal base stacked with translate_qlm; and adding an angle to phic is rotate_qlm about z.", "quantifier": "all dimensions, masses and degrees the routines accept", "why_tests_cant": "all dimensions and cuts", "anchors": ["newt/qlm.py:annulus", "newt/qlm.py:cylinder", "newt/qlm.py:cone", "newt/qlm.py:tri_iso_prism", "newt/qlm.py:tri_prism", "newt/qlm.py:rect_prism", "newt/qlm.py:ngon_prism", "newt/qlm.py:tetrahedron2", "newt/qlm.py:pyramid", "newt/rotations.py:rotate_qlm", "newt/translations.py:translate_qlm"]}
{"id": "C119", "title": "Independent calculations of the same solid agree", "statement": "For all dimensions: qlmNum.platehole turned by theta about y (rotate_qlm) is qlmACH.platehole, and qlmNum.steinmetz turned by a right angle about z is qlmACH.cylhole2 (up to degree 5, as far as the closed forms are known); qlmNum.cone_mom with inner radius 0 is qlm.cone of the corresponding mass; qlmNum.trap_mom is the difference of the qlm.tri_iso_prism2 arrays of its two radii, and for inner radius 0 a single one.", "quantifier": "all densities, dimensions, angles and degrees in the documented ranges", "why_tests_cant": "qlm_Test.py compares the implementations for one choice of dimensions each; the agreement is an identity between elliptic integrals, recursions and volume integrals", "anchors": ["newt/qlmNum.py:platehole", "newt/qlmNum.py:steinmetz", "newt/qlmNum.py:cone_mom", "newt/qlmNum.py:trap_mom", "newt/qlmACH.py:platehole", "newt/qlmACH.py:cylhole2", "newt/qlm.py:cone", "newt/qlm.py:tri_iso_prism2", "newt/rotations.py:rotate_qlm"]}
{"id": "C120", "title": "Rounding of rotations", "statement": "In floating point arithmetic of relative accuracy u (any rounding rule, any order of the sums, with or without fused multiplications) rotate_point_array copies the masses and returns every coordinate to within 5*relErr(u,20) (about 100 u) of the point's distance from the origin, for every angle, axis and length of the axis vector; it has a result exactly when the exact routine has (unless the axis is zero); distances between points are kept up to rounding; after n successive calls the points are off by at most ((1+9 relErr(u,20))^n - 1) of their distance, so stepping a turntable accumulates errors linearly; and the error of a force computed after a rotation is that of point_matrix_gravity plus the effect of this displacement.", "quantifier": "every u < 1, rounding rule, summation order, array, angle, axis, and every sequence of calls", "why_tests_cant": "A test sees the rounding of one platform on a few angles; the bound is over all roundings, axes and lengths of call sequences.", "anchors": ["newt/glib.py:rotate_point_array", "newt/glib.py:point_matrix_gravity"]}
{"id": "C121", "title": "The field is conservative and source-free", "statement": "The force that gmmr2_array computes on a point mass is a differentiable function of its position wherever it is defined; its derivative is the gravity gradient sum G m m' (3 u u^T/r^5 - 1/r^3), which is symmetric (no curl) and traceless (no sources in empty space). For yukawa_array the gradient is symmetric and its trace is minus the energy over lmbd^2 (screened Poisson equation). Carrying a whole array along any smooth path that does not touch the other array, the work of the force of point_matrix_gravity is the difference of the potential energies at the ends, and zero around a closed path.", "quantifier": "every array, position, alpha, lmbd and every continuously differentiable path", "why_tests_cant": "A finite difference at a few points, or the work along one path, does not show that the derivative has these symmetries everywhere.", "anchors": ["newt/glib.py:gmmr2_array", "newt/glib.py:yukawa_array", "newt/glib.py:point_matrix_gravity", "newt/glib.py:translate_point_array"]}
{"id": "C122", "title": "Gauss's law and Earnshaw's theorem", "statement": "The flux of the force that gmmr2_array gives on a mass m through any sphere that passes through no point of the array is -4 pi G m times the mass enclosed. The potential energy of two arrays, averaged over all displacements of the first by one distance smaller than the gap between them, is the energy without displacement; hence at each such distance there is a displacement that does not raise the energy: no arrangement holds a body in stable equilibrium.", "quantifier": "every array, centre and radius; every pair of arrays and distance smaller than the gap", "why_tests_cant": "Both are statements about integrals over all directions.", "anchors": ["newt/glib.py:gmmr2_array", "newt/glib.py:point_matrix_gravity", "newt/glib.py:translate_point_array"]}
{"id": "C123", "title": "Moments of degree one and two", "statement": "The inner moments qmoments of degree 1 are the first mass moments of the array (mass times centre of mass, in the combinations z and x - iy with the standard constants), so they vanish exactly when the centre of mass is at the origin, and those of degree 2 are the components of the quadrupole tensor. The outer moments Qmomentsb of degree 1, times G, are the components of the force on a unit mass at the origin, and those of degree 2 the components of the gravity gradient there.", "quantifier": "every array (outer: with no point at the origin) and every order L >= 2", "why_tests_cant": "A test checks numbers for one array; the identification of the complex moments with the physical vectors and tensors is an identity.", "anchors": ["newt/pg2Multi.py:qmoments", "newt/pg2Multi.py:Qmomentsb", "newt/glib.py:gmmr2_array"]}
{"id": "C124", "title": "The degrees double precision can reach", "statement": "With numbers that overflow above 2^1024 and underflow below 2^-1075 (and are otherwise exact): cgCoeff returns a finite number exactly if the product of its six factorials is representable, and then the Clebsch-Gordan coefficient; it is safe up to degree 35. translate_qlm and translate_Qlmb return the exact translated moments for arrays up to degree 49, translate_q2Q up to 26; from degree 50 (27) on the entries of order +-l are infinite or NaN whatever the moments are. Dl(l, ...) is finite, and right to 2^-40, exactly up to degree 85; the starting values of the recursion behind wignerDl and rotate_qlm are stored correctly up to degree 85, but from degree 89 on the one of highest order is silently stored as zero, although at a right angle it is at least 1/sqrt(2k). The coaxial matrices transl_newt_z_RR are right on their diagonal exactly up to degree 84, transl_newt_z_SS up to 85, and NaN beyond. The factor sqrt((l+m)!(l-m)!) of the closed-form solids (annulus, cone, the prisms, tetrahedra and the pyramid) is right up to degree 85 for all orders; where the product of factorials is not representable the entries of order +-m such a routine fills are infinite or NaN in both parts, whatever the dimensions: at every even degree from 86 on the entries of order +-l (for the N-gon if N divides l). The roots multipole_force takes are right up to degree 85; called with moments of degree 86 or more it returns no finite component, whatever the moments.", "quantifier": "every degree, order, angle, displacement and moment array", "why_tests_cant": "A test tries some degrees and angles; that no smaller degree fails for any order, angle or moments, and that every larger one does, is a statement about all of them.", "anchors": ["newt/clebschGordan.py:cgCoeff", "newt/translations.py:translate_qlm", "newt/translations.py:translate_Qlmb", "newt/translations.py:translate_q2Q", "newt/rotations.py:Dlmn", "newt/rotations.py:Dl", "newt/rotations.py:rotate_H_recurs", "newt/translationRecurs.py:transl_newt_z_RR", "newt/translationRecurs.py:transl_newt_z_SS", "newt/qlm.py:annulus", "newt/qlm.py:cone", "newt/qlm.py:tri_prism", "newt/qlm.py:rect_prism", "newt/qlm.py:ngon_prism", "newt/qlm.py:tetrahedron", "newt/qlm.py:pyramid", "newt/multipoleLib.py:multipole_force"]}
{"id": "C125", "title": "The lowest orders of the multipole force and torque in vector form", "statement": "With moments to degree 1, multipole_force is the total mass times the field of the other array at the origin, for every displacement, and torques_at_angle is the torque of that uniform field on the turned array. With moments to degree 2 they are the force (on the displaced array) and the torque (on the turned array) of the field that has the value and the gravity gradient of the true field at the origin. For a body whose centre of mass is at the origin degree 1 gives no torque, degree 2 the mass times the field as force, and a torque in which only the gravity gradient enters.", "quantifier": "every pair of arrays (the outer one with no point at the origin), displacement and angle", "why_tests_cant": "An identity between complex multipole sums and vector formulas for all arrays; a test compares a few numbers.", "anchors": ["newt/multipoleLib.py:multipole_force", "newt/multipoleLib.py:torque_lm", "newt/multipoleLib.py:torques_at_angle", "newt/pg2Multi.py:qmoments", "newt/pg2Multi.py:Qmomentsb", "newt/glib.py:gmmr2_array"]}
{"id": "C126", "title": "Shapes and the arrays they share", "statement": "In any program that makes shapes and arrays and calls rotate, translate and add in any order, with any arrays (also arrays taken from shapes), no two shapes ever share an array; a method call changes no other shape, no moment array and no array except that shape's own com. As long as the program does not write into a shape's com and does not pass a shape's own com to its translate, every call does exactly what it does when arrays are values, so the shapes describe the bodies they should. A reference to shape.com taken earlier follows translate but not rotate or add. shape.translate(shape.com, ...) moves the mesh and the moments by twice the vector but com by once, after which the shape describes no body.", "quantifier": "every program (sequence of constructors, array writes and method calls), any number of shapes and arrays", "why_tests_cant": "Aliasing bugs appear only for particular sequences of calls and shared references; no finite set of programs covers them.", "anchors": ["newt/shapes.py:Shape.translate", "newt/shapes.py:Shape.rotate", "newt/shapes.py:Shape.add", "newt/translations.py:translate_qlm", "newt/translations.py:translate_Qlmb", "newt/rotations.py:rotate_qlm"]}
{"id": "C127", "title": "Rounding of the multipole moments", "statement": "If every operation and library function has a relative error of at most u and sph_harm of degree l an error of at most e(l), each moment that qmoments and Qmomentsb return, in whatever order numpy sums, differs from the exact one by at most the sum of |mass| r^l (outer: |mass| / r^(l+1)) times an explicit factor. The factor is proportional to u if all rows keep away from the z axis, but to sqrt(u) in general, because the polar angle is found as arccos(z/r); in double precision, up to degree 20 and 100000 rows, 1e-10 and 2e-6 of the largest harmonic. If the operations are rounded to nearest, z/r never exceeds one, so no NaN appears and a floating point call returns exactly when the exact one does. The loss is real: for a unit mass at height one and 2^-27 off the axis the computed q11 is zero (up to 4 e(1)) while the exact one is sqrt(3/8pi) 2^-27.", "quantifier": "every array, degree, order, accuracy u <= 1/4, run and summation order; every precision for the absence of NaN", "why_tests_cant": "Rounding errors depend on every bit of every coordinate and on the summation order of the machine; tests sample a few inputs on one machine.", "anchors": ["newt/pg2Multi.py:qmoments", "newt/pg2Multi.py:Qmomentsb"]}
{"id": "C128", "title": "Rounding of the torque from multipole moments", "statement": "In floating point arithmetic of relative accuracy u, with complex products fused or not and columns summed in any order, torque_lm followed by torques_at_angle differs from the exact result by at most an explicit factor, about (3L + 17 + L|angle|) u, times four times the sum of the amplitudes taken without sign. The whole chain from two point arrays (qmoments, Qmomentsb, torque_lm, torques_at_angle, all in floating point), one within r of the origin and one beyond R > r, gives the Newtonian torque about z on the turned array up to G M M' (r times the truncation error of degree L + 8 r R/(R - r)^3 times an explicit rounding budget); in double precision, up to degree 20 and 100000 rows in all, the budget is at most 4e-6 with sph_harm accurate to 1e-7, and 1e-10 with sph_harm accurate to 1e-12 and rows away from the z axis. Hence it also agrees with the torque that point_matrix_gravity computes in floating point, up to the sum of the two errors. torques_at_angle returns exactly when the exact call does, and without rounding the result is the exact one.", "quantifier": "every pair of arrays, degree, angle, accuracy u <= 1/4, run, summation order and use of fused products", "why_tests_cant": "Truncation and rounding errors interact over thousands of operations; a test compares two numbers for one pair of bodies on one machine.", "anchors": ["newt/multipoleLib.py:torque_lm", "newt/multipoleLib.py:torques_at_angle", "newt/pg2Multi.py:qmoments", "newt/pg2Multi.py:Qmomentsb", "newt/glib.py:point_matrix_gravity"]}
{"id": "C129", "title": "Rounding of the force from multipole moments", "statement": "In floating point arithmetic of relative accuracy u, with complex products fused or not and sums in any order, force_basis returns each derivative of the regular solid harmonics of degree l up to about 7 l u times an explicit majorant, and multipole_force returns each component of the force between two sets of moments up to an explicit factor times the force without regard to sign; in double precision, up to degree 20, the factor is at most 1e-11. The whole chain from two point arrays (qmoments, Qmomentsb, multipole_force with any displacement v, all in floating point), one within r of the origin and one beyond R > r + |v|, gives the Newtonian force on the displaced array up to the truncation error of degree L plus an explicit rounding budget, for v = 0 G M M' 15/2 (R + 3 r)/(R - r)^3 times at most 4e-6 in double precision up to degree 20 and 100000 rows (1e-10 away from the z axis with sph_harm accurate to 1e-12). Hence it agrees with the force that point_matrix_gravity computes in floating point up to the sum of the errors. The floating point call returns exactly when the exact one does, which is always unless L = 0 and there is no displacement, and without rounding the result is the exact one.", "quantifier": "every pair of arrays and of moment sets, degree, displacement, accuracy u <= 1/4, run, summation order and use of fused products", "why_tests_cant": "A recursion over all degrees and a five-fold sum; rounding errors depend on every bit of the input, and a test compares two numbers for one pair of bodies on one machine.", "anchors": ["newt/multipoleLib.py:force_basis", "newt/multipoleLib.py:multipole_force", "newt/pg2Multi.py:qmoments", "newt/pg2Multi.py:Qmomentsb", "newt/glib.py:point_matrix_gravity"]}
{"id": "C130", "title": "Rounding of Clebsch-Gordan coefficients and of translated moments", "statement": "In floating point arithmetic of relative accuracy u: cgCoeff returns exactly zero where the coefficient is not allowed and otherwise Racah's value up to an explicit factor (about 24 u log((j1+j2+J+1)!) plus one u per operation) times Racah's formula without signs; the coefficients of the largest and smallest J, the only ones translations use, have that small error relative to themselves. translate_qlm, translate_Qlmb and translate_q2Q return the exact translation of the given moments up to an explicit factor times the translation without regard to sign, which for the moments of an array within r (outside R) is at most (2L+1) times the largest moment an array of that mass within r + d (outside R - d, d - r) can have. So qmoments followed by translate_qlm, all in floating point, gives the moments of the moved array up to the two errors. In double precision up to degree 10 the factor is 4e-12 for a displacement more than 6 degrees off the z axis (2e-6 near it, because of arccos), with sph_harm accurate to 1e-13 (1e-7). Rounded to nearest, no call gives a NaN except translate_q2Q without displacement; without rounding the results are the exact ones.", "quantifier": "every set of moments, point array, displacement, degree, order, quantum numbers, accuracy u and run", "why_tests_cant": "The coefficients come from exponentials of differences of logarithms of factorials, whose errors grow with the degree, and the terms of a translation cancel; a test compares a few values on one machine.", "anchors": ["newt/clebschGordan.py:cgCoeff", "newt/translations.py:translate_qlm", "newt/translations.py:translate_Qlmb", "newt/translations.py:translate_q2Q", "newt/pg2Multi.py:qmoments", "newt/pg2Multi.py:Qmomentsb"]}
{"id": "C131", "title": "Moving a body by way of its moments, in floating point", "statement": "All in floating point arithmetic of relative accuracy u: the moments of an array within r of the origin, moved by translate_qlm through v, with the outer moments of an array beyond R > r + |v|, give through torque_lm and torques_at_angle the Newtonian torque about z on the array moved by v and then turned, and through multipole_force without displacement the Newtonian force on the moved array, up to G M M' times the truncation error of degree L at radius r + |v| plus an explicit rounding budget (in double precision up to degree 10 and 100000 rows a relative 2e-10 away from the z axis with sph_harm accurate to 1e-13, else 7e-6, times (2L+1) times an explicit function of r + |v| and R). Hence moving the moments, displacing multipole_force, and moving the points by translate_point_array and summing with point_matrix_gravity (also in floating point) agree with each other up to the sum of their errors.", "quantifier": "every pair of arrays, displacement, degree, angle, accuracy u <= 1/4, run, summation order and use of fused products", "why_tests_cant": "Three chains of routines whose truncation and rounding errors accumulate; a test compares numbers for one pair of bodies on one machine.", "anchors": ["newt/translations.py:translate_qlm", "newt/multipoleLib.py:torque_lm", "newt/multipoleLib.py:torques_at_angle", "newt/multipoleLib.py:multipole_force", "newt/pg2Multi.py:qmoments", "newt/pg2Multi.py:Qmomentsb", "newt/glib.py:translate_point_array", "newt/glib.py:point_matrix_gravity"]}
{"id": "C132", "title": "Rounding of the Wigner matrices and of rotated moments", "statement": "In floating point arithmetic of relative accuracy u: Dl returns each entry of the rotation matrix of degree l up to an explicit factor, about (3l + 24 + 2l(|alpha| + |gamma|)) u, times Wigner's sum taken without signs, which is at most 2^l (so in double precision up to degree 10 and angles up to two turns no entry is wrong by more than 1.5e-10). rotate_qlm_Ds with these matrices, however the scalar products are summed or fused, returns what rotate_qlm returns in exact arithmetic (by another algorithm) up to an explicit factor, 1.6e-13 in double precision, times at most 2^l times the sum of the moduli of the moments of that degree; with conj_trans it returns the inverse rotation, and rotating there and back returns the moments up to the square of the factor less one times (2l+1) 4^l that sum. The monopole and entries outside of the triangle are never changed, nor anything if the number of matrices does not match. qmoments followed by the rotation gives the moments of the array rotated by gamma about z, beta about y and alpha about z, and with Qmomentsb, torque_lm and torques_at_angle the Newtonian torque on that array, up to the truncation error and an explicit rounding budget. Every call returns, and without rounding the results are the exact ones.", "quantifier": "every degree, order, set of angles, set of moments, pair of arrays, accuracy u, run, summation order and use of fused products", "why_tests_cant": "The alternating sums cancel more and more as the degree grows; a test compares a few angles and degrees on one machine.", "anchors": ["newt/rotations.py:Dlmn", "newt/rotations.py:Dl", "newt/rotations.py:rotate_qlm_Ds", "newt/rotations.py:rotate_qlm", "newt/pg2Multi.py:qmoments", "newt/pg2Multi.py:Qmomentsb", "newt/multipoleLib.py:torque_lm", "newt/multipoleLib.py:torques_at_angle"]}
{"id": "C133", "title": "Rounding of the recursive Wigner matrices", "statement": "In floating point arithmetic of relative accuracy u <= 1/1000, with associated Legendre functions accurate to eps (relative to their largest value) and computed cosines that do not exceed one, for an angle in [0, pi]: every entry of degree n that rotate_H_recurs returns differs from the exact one by at most 3^n (3 s + 35 u), where s is the error of the starting values: about eps plus 2 u log((2n+2)!) plus n + 1 times the error of the angle that the rounded cosine stands for. That error of the angle is at most pi sqrt(u/2), and at most pi u |cot beta| once sin beta exceeds that. wignerDl, which first reduces any angle beta modulo 2 np.pi and reflects it, returns each entry of degree l, and rotate_qlm each moment of degree l, up to an explicit factor built from that and from (l + 1) (2 |beta| + 22) u for the reduction (for moments times the sum of the moduli of the moments of that degree), provided that np.pi is accurate to u, not larger than pi and no sum is rounded across it or its double, as in double precision; the monopole and entries outside of the triangle are returned unchanged; wignerDl and Dl agree up to the sum of their errors. The moments of point masses, computed and then rotated by rotate_qlm, are those of the masses rotated by rotate_point_array up to such a factor, and the torque from them through torque_lm and torques_at_angle is that of point_matrix_gravity on the rotated and turned masses up to an explicit truncation error and an explicit rounding error. In double precision the entries are accurate to 3e-5 up to degree 4 for every angle, and to 7e-9 up to degree 10 if sin beta >= 1/2. The loss near the poles is real: for 0 < beta <= 2^-27, with cosines rounded to nearest, all entries with exactly one order equal to zero are exactly zero, so rotate_qlm does not tilt a body of revolution about z at all, although exactly q11 becomes sin(beta)/sqrt(2) times q10. Calls return for all angles, and without rounding (and with np.pi exact) the result is the exact one.", "quantifier": "every degree, order, set of moments, set of three angles, accuracy u <= 1/1000, run, summation order and use of fused products", "why_tests_cant": "A two-index recursion that amplifies the error of its starting values from row to row; a test compares a few angles and degrees on one machine, and agreement away from the poles says nothing about small tilts.", "anchors": ["newt/rotations.py:rotate_H_recurs", "newt/rotations.py:copy_tri", "newt/rotations.py:dnm", "newt/rotations.py:bnm", "newt/rotations.py:anm", "newt/rotations.py:rfac", "newt/rotations.py:wignerDl", "newt/rotations.py:rotate_qlm", "newt/rotations.py:Dl"]}
{"id": "C134", "title": "Rounding of the closed-form moments of spheres, cylinders, annular sections and cones", "statement": "In floating point arithmetic of relative accuracy u, every entry that annulus returns differs from the exact moment of the uniform annular section (an integral over the solid), and every entry that cone returns from that of the section of a cone, by at most an explicit growth factor less one times an explicit size, the closed form with every subtraction replaced by an addition; an annulus needs u (Ro^2 + Ri^2) < Ro^2 - Ri^2, so its wall must not be too thin. An entry of cylinder has the relative error of 8 + 11 (l/2) + L/2 roundings with respect to its closed form without subtractions (1.6e-14 in double precision up to degree 10), and the entries of odd degree or of nonzero order are exactly zero. The one entry of sphere that does not vanish has the relative error of three roundings and the others are exactly zero. Calls are rejected according to the parameters and the machine's pi alone, and with such a wall no division by a vanishing thickness occurs. Runs exist. In double precision, up to degree 10, for walls with Ro^2 + Ri^2 <= 10 (Ro^2 - Ri^2) and centre angles of at most 7, the factors are below 1.5e-13 (annulus) and 2.4e-13 (cone).", "quantifier": "every degree, order, mass and shape of the solid, accuracy u, run, order of the sums and accuracy of the library's exponential, logarithm of the factorial, sine and cosine", "why_tests_cant": "The cancellation between inner and outer radius grows without bound as the wall gets thinner; a test compares a few shapes on one machine.", "anchors": ["newt/qlm.py:sphere", "newt/qlm.py:cylinder", "newt/qlm.py:annulus", "newt/qlm.py:cone"]}
